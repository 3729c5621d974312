import Verif.Spec.CoverTree
import Mathlib.Algebra.Order.Field.Basic
import Mathlib.Algebra.Order.Field.Power
import Mathlib.Algebra.Order.Archimedean.Basic
import Mathlib.Tactic.Linarith
import Mathlib.Tactic.Ring
import Mathlib.Data.List.Perm.Basic

/-!
# Cover trees (C43)
-/

namespace Aleph

open Spec

variable {P α : Type}

namespace CoverTree

/-- Induction over trees. -/
theorem Node.ind {motive : Node P → Prop} (h : ∀ p l cs, (∀ c ∈ cs, motive c) → motive (.mk p l cs)) (t : Node P) :
    motive t :=
  Node.rec (motive_1 := motive) (motive_2 := fun cs => ∀ c ∈ cs, motive c) (fun p l cs ih => h p l cs ih)
    (by simp) (fun c cs hc hcs => by
      intro x hx
      rcases List.mem_cons.1 hx with rfl | hx
      · exact hc
      · exact hcs x hx) t

mutual
/-- All points of a tree, depth first. -/
def dfs : Node P → List P
  | .mk p _ cs => p :: dfss cs
/-- All points of some trees. -/
def dfss : List (Node P) → List P
  | [] => []
  | c :: cs => dfs c ++ dfss cs
end

theorem dfss_eq (cs : List (Node P)) : dfss cs = cs.flatMap dfs := by
  induction cs with
  | nil => simp [dfss]
  | cons c cs ih => simp [dfss, ih]

theorem sizes_eq (cs : List (Node P)) : sizes cs = (cs.map size).sum := by
  induction cs with
  | nil => simp [sizes]
  | cons c cs ih => simp [sizes, ih]

theorem dfs_mk (p : P) (l : ℤ) (cs : List (Node P)) : dfs (.mk p l cs) = p :: cs.flatMap dfs := by
  rw [dfs, dfss_eq]

theorem size_mk (p : P) (l : ℤ) (cs : List (Node P)) : size (.mk p l cs) = (cs.map size).sum + 1 := by
  rw [size, sizes_eq]

theorem dfs_eq (t : Node P) : dfs t = t.point :: t.children.flatMap dfs := by
  cases t; exact dfs_mk _ _ _

theorem size_eq (t : Node P) : size t = (t.children.map size).sum + 1 := by
  cases t; exact size_mk _ _ _

theorem point_mem_dfs (t : Node P) : t.point ∈ dfs t := by rw [dfs_eq]; simp

/-! ### Recursive insertion -/

section Insert

variable [Field α] [LinearOrder α]

theorem insertRec_mk (d : P → P → α) (p q : P) (l : ℤ) (cs : List (Node P)) :
    insertRec d p (.mk q l cs) = .mk q l ((insertChildren d p cs).getD (cs ++ [.mk p (l - 1) []])) := by
  rw [insertRec]
  cases insertChildren d p cs <;> rfl

theorem insertRec_point (d : P → P → α) (p : P) (t : Node P) : (insertRec d p t).point = t.point := by
  cases t; rw [insertRec_mk]; rfl

theorem insertRec_level (d : P → P → α) (p : P) (t : Node P) : (insertRec d p t).level = t.level := by
  cases t; rw [insertRec_mk]; rfl

/-- Insertion into the children: either no child covers the point, or the first child that does is modified. -/
theorem insertChildren_spec (d : P → P → α) (p : P) (cs : List (Node P)) :
    (insertChildren d p cs = none ∧ ∀ c ∈ cs, coveringDistance c.level < d c.point p) ∨
    ∃ l1 c l2, cs = l1 ++ c :: l2 ∧ d c.point p ≤ coveringDistance c.level ∧
      insertChildren d p cs = some (l1 ++ insertRec d p c :: l2) := by
  induction cs with
  | nil => left; simp [insertChildren]
  | cons c cs ih =>
    rw [insertChildren]
    by_cases h : d c.point p ≤ coveringDistance c.level
    · rw [if_pos h]
      exact .inr ⟨[], c, cs, rfl, h, rfl⟩
    · rw [if_neg h]
      rcases ih with ⟨h1, h2⟩ | ⟨l1, x, l2, h1, h2, h3⟩
      · left
        rw [h1]
        refine ⟨rfl, ?_⟩
        intro x hx
        rcases List.mem_cons.1 hx with rfl | hx
        · exact lt_of_not_ge h
        · exact h2 x hx
      · right
        refine ⟨c :: l1, x, l2, by rw [h1]; rfl, h2, ?_⟩
        rw [h3]; rfl

theorem insertRec_dfs (d : P → P → α) (p : P) (t : Node P) : (dfs (insertRec d p t)).Perm (p :: dfs t) := by
  induction t using Node.ind with
  | h q l cs ih =>
    rw [insertRec_mk, dfs_mk, dfs_mk]
    rcases insertChildren_spec d p cs with ⟨h1, _⟩ | ⟨l1, c, l2, h1, _, h3⟩
    · rw [h1]
      simp only [Option.getD_none, List.flatMap_append, List.flatMap_cons, List.flatMap_nil, List.append_nil, dfs_mk]
      refine (List.Perm.cons q (List.perm_append_comm)).trans ?_
      exact List.Perm.swap _ _ _
    · rw [h3]
      simp only [Option.getD_some, h1, List.flatMap_append, List.flatMap_cons]
      have hc : c ∈ cs := by rw [h1]; simp
      have := ih c hc
      refine (List.Perm.cons q ((List.Perm.append_left _ (this.append_right _)).trans ?_)).trans (List.Perm.swap _ _ _)
      simp only [List.cons_append]
      exact List.perm_middle

theorem insertRec_valid (d : P → P → α) (p : P) (t : Node P) (ht : IsCoverTree d t)
    (hc : d t.point p ≤ coveringDistance t.level) : IsCoverTree d (insertRec d p t) := by
  induction t using Node.ind with
  | h q l cs ih =>
    obtain ⟨_, _, _, hl, hcov, hsep, hb⟩ := ht
    rw [insertRec_mk]
    rcases insertChildren_spec d p cs with ⟨h1, h2⟩ | ⟨l1, c, l2, h1, h2, h3⟩
    · rw [h1, Option.getD_none]
      refine .mk q l _ ?_ ?_ ?_ ?_
      · intro c hc'
        rcases List.mem_append.1 hc' with h | h
        · exact hl c h
        · rw [List.mem_singleton.1 h]; rfl
      · intro c hc'
        rcases List.mem_append.1 hc' with h | h
        · exact hcov c h
        · rw [List.mem_singleton.1 h]; exact hc
      · refine List.pairwise_append.2 ⟨hsep, List.pairwise_singleton _ _, ?_⟩
        intro a ha b hb'
        rw [List.mem_singleton.1 hb']
        have := h2 a ha
        rw [hl a ha] at this
        exact this
      · intro c hc'
        rcases List.mem_append.1 hc' with h | h
        · exact hb c h
        · rw [List.mem_singleton.1 h]
          exact .mk p (l - 1) [] (by simp) (by simp) (by simp) (by simp)
    · rw [h3, Option.getD_some]
      have hmem : c ∈ cs := by rw [h1]; simp
      have key : ∀ x ∈ l1 ++ insertRec d p c :: l2, x ∈ cs ∨ x = insertRec d p c := by
        intro x hx
        rw [h1]
        simp only [List.mem_append, List.mem_cons] at hx ⊢
        tauto
      refine .mk q l _ ?_ ?_ ?_ ?_
      · intro x hx
        rcases key x hx with h | rfl
        · exact hl x h
        · rw [insertRec_level]; exact hl c hmem
      · intro x hx
        rcases key x hx with h | rfl
        · exact hcov x h
        · rw [insertRec_point]; exact hcov c hmem
      · rw [h1] at hsep
        rw [List.pairwise_append, List.pairwise_cons] at hsep ⊢
        refine ⟨hsep.1, ⟨?_, hsep.2.1.2⟩, ?_⟩
        · rw [insertRec_point]; exact hsep.2.1.1
        · intro a ha b hb'
          rcases List.mem_cons.1 hb' with rfl | hb'
          · rw [insertRec_point]; exact hsep.2.2 a ha c (by simp)
          · exact hsep.2.2 a ha b (by simp [hb'])
      · intro x hx
        rcases key x hx with h | rfl
        · exact hb x h
        · exact ih c hmem (hb c hmem) h2

end Insert

/-! ### The search for a leaf -/

/-- The node at a path. -/
def nodeAt : List ℕ → Node P → Option (Node P)
  | [], t => some t
  | i :: path, t => (t.children[i]?).bind (nodeAt path)

theorem nodeAt_append (path : List ℕ) (i : ℕ) (t : Node P) :
    nodeAt (path ++ [i]) t = (nodeAt path t).bind fun x => x.children[i]? := by
  induction path generalizing t with
  | nil => simp [nodeAt]
  | cons j path ih =>
    simp only [List.cons_append, nodeAt]
    cases t.children[j]? with
    | none => rfl
    | some c => simp [ih]

/-- Entries of the stack are nodes of the tree with their path. -/
def OnPath (t : Node P) (x : List ℕ × Node P) : Prop := nodeAt x.1 t = some x.2

theorem scan_spec {t n : Node P} {path : List ℕ} (hn : OnPath t (path, n)) (i : ℕ) (cs : List (Node P))
    (hi : ∀ k, cs[k]? = n.children[i + k]?) (stack : List (List ℕ × Node P)) (hs : ∀ x ∈ stack, OnPath t x ∧ x.2.isLeaf = false) :
    (∀ x ∈ (scan path i cs stack).2, OnPath t x ∧ x.2.isLeaf = false) ∧
    (∀ x, (scan path i cs stack).1 = some x → OnPath t x ∧ x.2.isLeaf = true ∧ x.1 ≠ []) ∧
    (cs ≠ [] → (scan path i cs stack).1 ≠ none ∨ (scan path i cs stack).2 ≠ []) ∧
    ((scan path i cs stack).2.map fun x => size x.2).sum ≤ (cs.map size).sum + (stack.map fun x => size x.2).sum := by
  induction cs generalizing i stack with
  | nil =>
    rw [scan]
    exact ⟨hs, by simp, by simp, by simp⟩
  | cons c cs ih =>
    rw [scan]
    have hc : OnPath t (path ++ [i], c) := by
      unfold OnPath at hn ⊢
      rw [nodeAt_append, hn]
      have := hi 0
      simpa using this.symm
    by_cases hl : c.isLeaf = true
    · rw [if_pos hl]
      refine ⟨hs, ?_, by simp, by simp⟩
      intro x hx
      obtain rfl := Option.some.inj hx
      exact ⟨hc, hl, by simp⟩
    · rw [if_neg hl]
      obtain ⟨h1, h2, h3, h4⟩ := ih (i + 1) (by
        intro k
        have := hi (k + 1)
        rw [List.getElem?_cons_succ] at this
        rw [this]
        congr 1
        omega) ((path ++ [i], c) :: stack) (by
        intro x hx
        rcases List.mem_cons.1 hx with rfl | hx
        · exact ⟨hc, by simpa using hl⟩
        · exact hs x hx)
      refine ⟨h1, h2, ?_, ?_⟩
      · intro _
        by_cases hcs : cs = []
        · subst hcs
          right
          simp [scan]
        · exact h3 hcs
      · simp only [List.map_cons, List.sum_cons] at h4 ⊢
        omega

theorem search_spec' {t : Node P} (fuel : ℕ) (stack : List (List ℕ × Node P)) (best : Option (List ℕ × Node P))
    (hf : (stack.map fun x => size x.2).sum < fuel) (hs : ∀ x ∈ stack, OnPath t x ∧ x.2.isLeaf = false)
    (hb : ∀ x, best = some x → OnPath t x ∧ x.2.isLeaf = true ∧ x.1 ≠ []) (hne : stack ≠ [] ∨ best ≠ none) :
    ∃ x, search fuel stack best = some x ∧ OnPath t x ∧ x.2.isLeaf = true ∧ x.1 ≠ [] := by
  induction fuel generalizing stack best with
  | zero => omega
  | succ f ih =>
    cases stack with
    | nil =>
      rw [search]
      obtain ⟨x, hx⟩ := Option.ne_none_iff_exists'.1 (hne.resolve_left (by simp))
      exact ⟨x, hx, hb x hx⟩
    | cons x stack =>
      rw [search]
      obtain ⟨h1, h2, h3, h4⟩ := scan_spec (t := t) (n := x.2) (path := x.1) (hs x (by simp)).1 0 x.2.children (by simp) stack
        (fun y hy => hs y (by simp [hy]))
      have hxl := (hs x (by simp)).2
      have hsz : ((scan x.1 0 x.2.children stack).2.map fun x => size x.2).sum < f := by
        refine lt_of_le_of_lt h4 ?_
        simp only [List.map_cons, List.sum_cons] at hf
        rw [size_eq x.2] at hf
        omega
      cases hsc : scan x.1 0 x.2.children stack with
      | mk r st =>
        rw [hsc] at h1 h2 h3 hsz
        cases r with
        | some leaf => exact ih st (some leaf) hsz h1 (by intro y hy; exact h2 y hy) (.inr (by simp))
        | none =>
          refine ih st best hsz h1 hb ?_
          left
          rcases h3 (by
            intro h
            simp [Node.isLeaf, h] at hxl) with h | h
          · exact absurd rfl h
          · exact h

/-! ### Removal of a leaf -/

theorem removeAt_point (path : List ℕ) (t : Node P) : (removeAt path t).point = t.point := by
  match path, t with
  | [], t => rfl
  | [i], .mk p l cs => rfl
  | i :: j :: path, .mk p l cs => rfl

theorem removeAt_level (path : List ℕ) (t : Node P) : (removeAt path t).level = t.level := by
  match path, t with
  | [], t => rfl
  | [i], .mk p l cs => rfl
  | i :: j :: path, .mk p l cs => rfl

theorem modify_split {β : Type} (l : List β) (i : ℕ) (x : β) (h : l[i]? = some x) :
    ∃ l1 l2, l = l1 ++ x :: l2 ∧ (∀ f, l.modify i f = l1 ++ f x :: l2) ∧ l.eraseIdx i = l1 ++ l2 := by
  induction l generalizing i with
  | nil => simp at h
  | cons y l ih =>
    cases i with
    | zero =>
      simp only [List.getElem?_cons_zero, Option.some.injEq] at h
      subst h
      exact ⟨[], l, rfl, fun f => by simp, by simp⟩
    | succ i =>
      rw [List.getElem?_cons_succ] at h
      obtain ⟨l1, l2, h1, h2, h3⟩ := ih i h
      refine ⟨y :: l1, l2, by rw [h1]; rfl, fun f => ?_, ?_⟩
      · rw [List.modify_succ_cons, h2]; rfl
      · rw [List.eraseIdx_cons_succ, h3]; rfl

theorem removeAt_dfs (path : List ℕ) (t leaf : Node P) (hp : nodeAt path t = some leaf) (hne : path ≠ [])
    (hl : leaf.isLeaf = true) : (dfs t).Perm (leaf.point :: dfs (removeAt path t)) := by
  induction path generalizing t with
  | nil => exact absurd rfl hne
  | cons i path ih =>
    cases t with
    | mk p l cs =>
      simp only [nodeAt, Node.children] at hp
      obtain ⟨c, hc, hp⟩ := Option.bind_eq_some_iff.1 hp
      obtain ⟨l1, l2, h1, h2, h3⟩ := modify_split cs i c hc
      cases path with
      | nil =>
        simp only [nodeAt, Option.some.injEq] at hp
        subst hp
        rw [removeAt, h3, dfs_mk, dfs_mk, h1, List.flatMap_append, List.flatMap_cons, List.flatMap_append]
        have : dfs c = [c.point] := by
          rw [dfs_eq]
          have : c.children = [] := by simpa [Node.isLeaf] using hl
          simp [this]
        rw [this]
        refine (List.Perm.cons p ?_).trans (List.Perm.swap _ _ _)
        exact List.perm_middle
      | cons j path =>
        rw [removeAt, h2, dfs_mk, dfs_mk, h1, List.flatMap_append, List.flatMap_cons, List.flatMap_append,
          List.flatMap_cons]
        have := ih c hp (by simp)
        refine (List.Perm.cons p ((List.Perm.append_left _ (this.append_right _)).trans ?_)).trans (List.Perm.swap _ _ _)
        exact List.perm_middle

section Remove

variable [Field α] [LinearOrder α]

theorem removeAt_valid (d : P → P → α) (path : List ℕ) (t : Node P) (ht : IsCoverTree d t) :
    IsCoverTree d (removeAt path t) := by
  induction path generalizing t with
  | nil => exact ht
  | cons i path ih =>
    obtain ⟨p, l, cs, hl, hcov, hsep, hb⟩ := ht
    cases path with
    | nil =>
      rw [removeAt]
      refine .mk p l _ ?_ ?_ (hsep.sublist (List.eraseIdx_sublist _ _)) ?_
      · exact fun c hc => hl c (List.mem_of_mem_eraseIdx hc)
      · exact fun c hc => hcov c (List.mem_of_mem_eraseIdx hc)
      · exact fun c hc => hb c (List.mem_of_mem_eraseIdx hc)
    | cons j path =>
      rw [removeAt]
      cases hc : cs[i]? with
      | none =>
        rw [List.modify_eq_self (by simpa using hc)]
        exact .mk p l cs hl hcov hsep hb
      | some c =>
        obtain ⟨l1, l2, h1, h2, h3⟩ := modify_split cs i c hc
        rw [h2]
        have hmem : c ∈ cs := by rw [h1]; simp
        have key : ∀ x ∈ l1 ++ removeAt (j :: path) c :: l2, x ∈ cs ∨ x = removeAt (j :: path) c := by
          intro x hx
          rw [h1]
          simp only [List.mem_append, List.mem_cons] at hx ⊢
          tauto
        refine .mk p l _ ?_ ?_ ?_ ?_
        · intro x hx
          rcases key x hx with h | rfl
          · exact hl x h
          · rw [removeAt_level]; exact hl c hmem
        · intro x hx
          rcases key x hx with h | rfl
          · exact hcov x h
          · rw [removeAt_point]; exact hcov c hmem
        · rw [h1] at hsep
          rw [List.pairwise_append, List.pairwise_cons] at hsep ⊢
          refine ⟨hsep.1, ⟨?_, hsep.2.1.2⟩, ?_⟩
          · rw [removeAt_point]; exact hsep.2.1.1
          · intro a ha b hb'
            rcases List.mem_cons.1 hb' with rfl | hb'
            · rw [removeAt_point]; exact hsep.2.2 a ha c (by simp)
            · exact hsep.2.2 a ha b (by simp [hb'])
        · intro x hx
          rcases key x hx with h | rfl
          · exact hb x h
          · exact ih c (hb c hmem)

variable [IsStrictOrderedRing α]

/-- All points below a node of level `l` are closer than `2 ^ (l + 1)`. -/
theorem below_lt (d : P → P → α) (htri : ∀ x y z, d x z ≤ d x y + d y z) (t : Node P) (ht : IsCoverTree d t) :
    ∀ c ∈ t.children, ∀ q ∈ dfs c, d t.point q < 2 ^ (t.level + 1) := by
  induction t using Node.ind with
  | h p l cs ih =>
    obtain ⟨_, _, _, hl, hcov, _, hb⟩ := ht
    intro c hc q hq
    change d p q < 2 ^ (l + 1)
    have h2 : (2 : α) ^ (l + 1) = 2 ^ l + 2 ^ l := by
      rw [zpow_add_one₀ (by norm_num)]; ring
    have hpos : (0 : α) < 2 ^ l := zpow_pos (by norm_num) l
    have h1 := hcov c hc
    rw [dfs_eq] at hq
    rcases List.mem_cons.1 hq with rfl | hq
    · rw [h2]; linarith
    · obtain ⟨c', hc', hq⟩ := List.mem_flatMap.1 hq
      have h3 := ih c hc (hb c hc) c' hc' q hq
      rw [hl c hc, sub_add_cancel] at h3
      have := htri p c.point q
      rw [h2]; linarith

end Remove

/-! ### Raising the level -/

section Raise

variable [Field α] [LinearOrder α] [IsStrictOrderedRing α]

theorem nodeAt_below (path : List ℕ) (t x : Node P) (h : nodeAt path t = some x) (hne : path ≠ []) :
    ∃ c ∈ t.children, x.point ∈ dfs c := by
  induction path generalizing t with
  | nil => exact absurd rfl hne
  | cons i path ih =>
    simp only [nodeAt] at h
    obtain ⟨c, hc, h⟩ := Option.bind_eq_some_iff.1 h
    refine ⟨c, List.mem_of_getElem? hc, ?_⟩
    cases path with
    | nil =>
      simp only [nodeAt, Option.some.injEq] at h
      subst h
      exact point_mem_dfs c
    | cons j path =>
      obtain ⟨c', hc', hx⟩ := ih c h (by simp)
      rw [dfs_eq]
      exact List.mem_cons_of_mem _ (List.mem_flatMap.2 ⟨c', hc', hx⟩)

/-- One round of the loop: a valid tree with the same points, whose level is higher by one. -/
theorem raise_step (d : P → P → α) (hsym : ∀ x y, d x y = d y x) (htri : ∀ x y z, d x z ≤ d x y + d y z) (p : P)
    (t : Node P) (ht : IsCoverTree d t) (hfar : d t.point p > 2 * coveringDistance t.level) :
    ∃ t', IsCoverTree d t' ∧ (dfs t').Perm (dfs t) ∧ t'.level = t.level + 1 ∧
      ∀ f, raise d p (f + 1) t = raise d p f t' := by
  by_cases hleaf : t.isLeaf = true
  · refine ⟨.mk t.point (t.level + 1) t.children, ?_, ?_, rfl, ?_⟩
    · have : t.children = [] := by simpa [Node.isLeaf] using hleaf
      rw [this]
      exact .mk _ _ [] (by simp) (by simp) (by simp) (by simp)
    · rw [dfs_mk, ← dfs_eq]
    · intro f
      rw [raise, if_pos hfar, if_pos hleaf]
  · obtain ⟨⟨path, leaf⟩, h1, h2, h3, h4⟩ := search_spec' (t := t) (size t + 1) [([], t)] none (by simp)
      (by
        intro x hx
        rw [List.mem_singleton.1 hx]
        exact ⟨rfl, by simpa using hleaf⟩) (by simp) (by simp)
    refine ⟨.mk leaf.point (t.level + 1) [removeAt path t], ?_, ?_, rfl, ?_⟩
    · refine .mk _ _ _ ?_ ?_ (List.pairwise_singleton _ _) ?_
      · intro c hc
        rw [List.mem_singleton.1 hc, removeAt_level]; ring
      · intro c hc
        rw [List.mem_singleton.1 hc, removeAt_point, hsym]
        obtain ⟨c, hc, hx⟩ := nodeAt_below path t leaf h2 h4
        exact (below_lt d htri t ht c hc _ hx).le
      · intro c hc
        rw [List.mem_singleton.1 hc]
        exact removeAt_valid d path t ht
    · rw [dfs_mk, List.flatMap_singleton]
      exact (removeAt_dfs path t leaf h2 h4 h3).symm
    · intro f
      rw [raise, if_pos hfar, if_neg hleaf, h1]

theorem raise_spec [Archimedean α] (d : P → P → α) (hsym : ∀ x y, d x y = d y x)
    (htri : ∀ x y z, d x z ≤ d x y + d y z) (p : P) (B : α) (t : Node P) (ht : IsCoverTree d t)
    (hB : ∀ q ∈ dfs t, d q p ≤ B) :
    ∃ t', IsCoverTree d t' ∧ (dfs t').Perm (dfs t) ∧ d t'.point p ≤ 2 * coveringDistance t'.level ∧
      ∃ rounds, ∀ k, rounds ≤ k → raise d p k t = some t' := by
  -- the number of rounds
  obtain ⟨n, hn⟩ : ∃ n : ℕ, B ≤ 2 * (2 : α) ^ (t.level + n) := by
    have hpos : (0 : α) < 2 * 2 ^ t.level := mul_pos two_pos (zpow_pos (by norm_num) _)
    obtain ⟨n, hn⟩ := pow_unbounded_of_one_lt (B / (2 * 2 ^ t.level)) (one_lt_two (α := α))
    refine ⟨n, ?_⟩
    rw [div_lt_iff₀ hpos] at hn
    rw [zpow_add₀ (by norm_num), zpow_natCast]
    linarith
  induction n generalizing t with
  | zero =>
    refine ⟨t, ht, List.Perm.refl _, ?_, 1, ?_⟩
    · refine le_trans (hB _ (point_mem_dfs t)) ?_
      simpa [coveringDistance] using hn
    · intro k hk
      obtain ⟨k, rfl⟩ : ∃ j, k = j + 1 := ⟨k - 1, by omega⟩
      rw [raise, if_neg]
      rw [not_lt]
      refine le_trans (hB _ (point_mem_dfs t)) ?_
      simpa [coveringDistance] using hn
  | succ n ih =>
    by_cases hfar : d t.point p > 2 * coveringDistance t.level
    · obtain ⟨t', h1, h2, h3, h4⟩ := raise_step d hsym htri p t ht hfar
      obtain ⟨t'', k1, k2, k3, r, k4⟩ := ih t' h1 (fun q hq => hB q (h2.mem_iff.1 hq)) (by
        rw [h3]
        refine hn.trans_eq ?_
        push_cast
        congr 2
        ring)
      refine ⟨t'', k1, k2.trans h2, k3, r + 1, ?_⟩
      intro k hk
      obtain ⟨k, rfl⟩ : ∃ j, k = j + 1 := ⟨k - 1, by omega⟩
      rw [h4]
      exact k4 k (by omega)
    · refine ⟨t, ht, List.Perm.refl _, le_of_not_gt hfar, 1, ?_⟩
      intro k hk
      obtain ⟨k, rfl⟩ : ∃ j, k = j + 1 := ⟨k - 1, by omega⟩
      rw [raise, if_neg hfar]

omit [IsStrictOrderedRing α] in
theorem exists_bound (d : P → P → α) (p : P) (l : List P) : ∃ B : α, ∀ q ∈ l, d q p ≤ B := by
  induction l with
  | nil => exact ⟨0, by simp⟩
  | cons x l ih =>
    obtain ⟨B, hB⟩ := ih
    refine ⟨max (d x p) B, ?_⟩
    intro q hq
    rcases List.mem_cons.1 hq with rfl | hq
    · exact le_max_left _ _
    · exact le_trans (hB q hq) (le_max_right _ _)

theorem insertNode_spec [Archimedean α] (d : P → P → α) (hsym : ∀ x y, d x y = d y x)
    (htri : ∀ x y z, d x z ≤ d x y + d y z) (p : P) (t : Node P) (ht : IsCoverTree d t) :
    ∃ t', IsCoverTree d t' ∧ (dfs t').Perm (p :: dfs t) ∧
      ∃ rounds, ∀ k, rounds ≤ k → insertNode d k t p = some t' := by
  by_cases hfar : d t.point p > coveringDistance t.level
  · obtain ⟨B, hB⟩ := exists_bound d p (dfs t)
    obtain ⟨t', h1, h2, h3, r, h4⟩ := raise_spec d hsym htri p B t ht hB
    refine ⟨.mk p (t'.level + 1) [t'], ?_, ?_, r, ?_⟩
    · refine .mk _ _ _ ?_ ?_ (List.pairwise_singleton _ _) ?_
      · intro c hc
        rw [List.mem_singleton.1 hc]; ring
      · intro c hc
        rw [List.mem_singleton.1 hc, hsym, zpow_add_one₀ (by norm_num), mul_comm]
        exact h3
      · intro c hc
        rw [List.mem_singleton.1 hc]
        exact h1
    · rw [dfs_mk, List.flatMap_singleton]
      exact h2.cons p
    · intro k hk
      rw [insertNode, if_pos hfar, h4 k hk]
      rfl
  · refine ⟨insertRec d p t, insertRec_valid d p t ht (le_of_not_gt hfar), insertRec_dfs d p t, 0, ?_⟩
    intro k _
    rw [insertNode, if_neg hfar]

end Raise

/-! ### Traversals -/

theorem sizes_children (ns : List (Node P)) :
    (ns.map size).sum = ((ns.flatMap Node.children).map size).sum + ns.length := by
  induction ns with
  | nil => simp
  | cons x ns ih =>
    simp only [List.map_cons, List.sum_cons, List.flatMap_cons, List.map_append, List.sum_append, List.length_cons]
    rw [ih, size_eq x]
    omega

theorem flatMap_dfs (ns : List (Node P)) :
    (ns.flatMap dfs).Perm (ns.map Node.point ++ (ns.flatMap Node.children).flatMap dfs) := by
  induction ns with
  | nil => simp
  | cons x ns ih =>
    simp only [List.flatMap_cons, List.map_cons, List.flatMap_append, List.cons_append]
    rw [dfs_eq x, List.cons_append]
    refine List.Perm.cons _ ?_
    refine (List.Perm.append_left _ ih).trans ?_
    rw [← List.append_assoc, ← List.append_assoc]
    exact List.Perm.append_right _ List.perm_append_comm

theorem bfs_points (k : ℕ) (ns : List (Node P)) (hk : (ns.map size).sum < k) :
    (bfs (fun t => [t.point]) k ns).Perm (ns.flatMap dfs) := by
  induction k generalizing ns with
  | zero => omega
  | succ k ih =>
    cases ns with
    | nil => simp [bfs]
    | cons x ns =>
      rw [bfs]
      · refine List.Perm.trans ?_ (flatMap_dfs (x :: ns)).symm
        have h1 : (x :: ns).flatMap (fun t => [t.point]) = (x :: ns).map Node.point := by
          generalize x :: ns = l
          induction l with
          | nil => rfl
          | cons y l ih => simp [ih]
        rw [h1]
        refine List.Perm.append_left _ (ih _ ?_)
        have := sizes_children (x :: ns)
        simp only [List.length_cons] at this
        omega
      · simp

theorem points_perm (t : Node P) : (points t).Perm (dfs t) := by
  have := bfs_points (size t + 1) [t] (by simp)
  simpa [points] using this

/-- The nodes of a tree. -/
inductive Below : Node P → Node P → Prop
  | refl (t : Node P) : Below t t
  | child {x c t : Node P} (hc : c ∈ t.children) (h : Below x c) : Below x t

theorem bfs_mem {β : Type} (f : Node P → List β) (k : ℕ) (ns : List (Node P)) (hk : (ns.map size).sum < k) (y : β) :
    y ∈ bfs f k ns ↔ ∃ t ∈ ns, ∃ x, Below x t ∧ y ∈ f x := by
  induction k generalizing ns with
  | zero => omega
  | succ k ih =>
    cases ns with
    | nil => simp [bfs]
    | cons x ns =>
      rw [bfs]
      · rw [List.mem_append, ih]
        · constructor
          · rintro (h | ⟨t, ht, z, hz, hy⟩)
            · obtain ⟨t, ht, hy⟩ := List.mem_flatMap.1 h
              exact ⟨t, ht, t, .refl t, hy⟩
            · obtain ⟨u, hu, ht⟩ := List.mem_flatMap.1 ht
              exact ⟨u, hu, z, .child ht hz, hy⟩
          · rintro ⟨t, ht, z, hz, hy⟩
            cases hz with
            | refl => exact .inl (List.mem_flatMap.2 ⟨_, ht, hy⟩)
            | child hc h => exact .inr ⟨_, List.mem_flatMap.2 ⟨t, ht, hc⟩, z, h, hy⟩
        · have := sizes_children (x :: ns)
          simp only [List.length_cons] at this
          omega
      · simp

theorem levelLoop_iff (k : ℕ) (level : ℤ) (ns : List (Node P)) (hk : (ns.map size).sum < k) :
    levelLoop k level ns = true ↔
      (∀ t ∈ ns, t.level = level - 1) ∧ ∀ t ∈ ns, ∀ x, Below x t → ∀ c ∈ x.children, c.level = x.level - 1 := by
  induction k generalizing level ns with
  | zero => omega
  | succ k ih =>
    cases ns with
    | nil => simp [levelLoop]
    | cons x ns =>
      rw [levelLoop]
      · rw [Bool.and_eq_true, ih, List.all_eq_true]
        · simp only [beq_iff_eq]
          constructor
          · rintro ⟨h1, h2, h3⟩
            refine ⟨h1, ?_⟩
            intro t ht y hy c hc
            cases hy with
            | refl =>
              rw [h1 t ht]
              exact h2 c (List.mem_flatMap.2 ⟨t, ht, hc⟩)
            | child hc' h => exact h3 _ (List.mem_flatMap.2 ⟨t, ht, hc'⟩) y h c hc
          · rintro ⟨h1, h2⟩
            refine ⟨h1, ?_, ?_⟩
            · intro c hc
              obtain ⟨t, ht, hc⟩ := List.mem_flatMap.1 hc
              rw [h2 t ht t (.refl t) c hc, h1 t ht]
            · intro c hc y hy c' hc'
              obtain ⟨t, ht, hc⟩ := List.mem_flatMap.1 hc
              exact h2 t ht y (.child hc hy) c' hc'
        · have := sizes_children (x :: ns)
          simp only [List.length_cons] at this
          omega
      · simp

section Check

variable [Field α] [LinearOrder α]

theorem separated_iff (d : P → P → α) (level : ℤ) (cs : List (Node P)) :
    separated d level cs = true ↔ cs.Pairwise fun c c' => 2 ^ (level - 1) < d c.point c'.point := by
  induction cs with
  | nil => simp [separated]
  | cons c cs ih =>
    rw [separated, Bool.and_eq_true, ih, List.pairwise_cons, List.all_eq_true]
    simp only [Bool.not_eq_true', decide_eq_false_iff_not, not_le]
    rfl

/-- A tree is a cover tree if and only if the conditions hold at all nodes. -/
theorem isCoverTree_iff (d : P → P → α) (t : Node P) : IsCoverTree d t ↔ ∀ x, Below x t →
    (∀ c ∈ x.children, c.level = x.level - 1) ∧ (∀ c ∈ x.children, d x.point c.point ≤ 2 ^ x.level) ∧
      x.children.Pairwise fun c c' => 2 ^ (x.level - 1) < d c.point c'.point := by
  induction t using Node.ind with
  | h p l cs ih =>
    constructor
    · rintro ⟨_, _, _, hl, hcov, hsep, hb⟩ x hx
      cases hx with
      | refl => exact ⟨hl, hcov, hsep⟩
      | child hc h => exact (ih _ hc).1 (hb _ hc) x h
    · intro h
      obtain ⟨h1, h2, h3⟩ := h _ (.refl _)
      exact .mk p l cs h1 h2 h3 fun c hc => (ih c hc).2 fun x hx => h x (.child hc hx)

end Check

end CoverTree

open CoverTree

/-- C43. Insertion of any sequence of points into a cover tree, for any metric, terminates without error; the result is a
cover tree, and it stores exactly the points that have been inserted. -/
theorem C43_cover_tree [Field α] [LinearOrder α] [IsStrictOrderedRing α] [Archimedean α] (d : P → P → α)
    (hsym : ∀ x y, d x y = d y x) (htri : ∀ x y z, d x z ≤ d x y + d y z) (p : P) (ps : List P) :
    ∃ t : Node P, IsCoverTree d t ∧ (points t).Perm (p :: ps) ∧
      ∃ rounds, ∀ k, rounds ≤ k → insertRange d k (p :: ps) = some (some t) := by
  suffices h : ∀ (ps : List P) (t : Node P), IsCoverTree d t → ∃ t' : Node P, IsCoverTree d t' ∧
      (dfs t').Perm (ps ++ dfs t) ∧ ∃ rounds, ∀ k, rounds ≤ k → ps.foldlM (CoverTree.insert d k) (some t) = some (some t') by
    obtain ⟨t, h1, h2, r, h3⟩ := h ps (.mk p 0 []) (.mk _ _ [] (by simp) (by simp) (by simp) (by simp))
    refine ⟨t, h1, (points_perm t).trans (h2.trans ?_), r, ?_⟩
    · rw [dfs_mk]
      exact List.perm_append_singleton p ps
    · intro k hk
      rw [insertRange, List.foldlM_cons]
      exact h3 k hk
  intro ps
  induction ps with
  | nil => exact fun t ht => ⟨t, ht, List.Perm.refl _, 0, fun k _ => rfl⟩
  | cons q ps ih =>
    intro t ht
    obtain ⟨t1, h1, h2, r1, h3⟩ := insertNode_spec d hsym htri q t ht
    obtain ⟨t2, k1, k2, r2, k3⟩ := ih t1 h1
    refine ⟨t2, k1, ?_, max r1 r2, ?_⟩
    · refine k2.trans ((List.Perm.append_left _ h2).trans ?_)
      exact List.perm_middle
    · intro k hk
      rw [List.foldlM_cons]
      have : CoverTree.insert d k (some t) q = some (some t1) := by
        simp only [CoverTree.insert, h3 k (le_trans (le_max_left _ _) hk), Option.map_some]
      rw [this]
      exact k3 k (le_trans (le_max_right _ _) hk)

/-- C43. The function `isValid` decides whether a tree is a cover tree. -/
theorem C43_is_valid [Field α] [LinearOrder α] (d : P → P → α) (t : Node P) :
    isValid d t = true ↔ IsCoverTree d t := by
  have hs : ([t].map size).sum < size t + 1 := by simp
  rw [isCoverTree_iff, isValid, Bool.and_eq_true, Bool.and_eq_true, checkLevel, levelLoop_iff _ _ _ hs,
    checkCovering, checkSeparating, List.all_eq_true, List.all_eq_true]
  simp only [bfs_mem _ _ _ hs, List.mem_singleton, exists_eq_left, forall_eq, id_eq]
  constructor
  · rintro ⟨⟨⟨_, h1⟩, h2⟩, h3⟩ x hx
    refine ⟨h1 x hx, ?_, ?_⟩
    · intro c hc
      have := h2 (decide (d x.point c.point ≤ coveringDistance x.level)) ⟨x, hx, List.mem_map.2 ⟨c, hc, rfl⟩⟩
      exact of_decide_eq_true this
    · exact (separated_iff d _ _).1 (h3 _ ⟨x, hx, rfl⟩)
  · intro h
    refine ⟨⟨⟨by simp, fun x hx => (h x hx).1⟩, ?_⟩, ?_⟩
    · rintro b ⟨x, hx, hb⟩
      obtain ⟨c, hc, rfl⟩ := List.mem_map.1 hb
      exact decide_eq_true ((h x hx).2.1 c hc)
    · rintro b ⟨x, hx, rfl⟩
      exact (separated_iff d _ _).2 (h x hx).2.2

/-- C43. In a cover tree every point is closer to the root than twice the covering distance of the root. -/
theorem C43_radius [Field α] [LinearOrder α] [IsStrictOrderedRing α] (d : P → P → α) (h0 : ∀ x, d x x = 0)
    (htri : ∀ x y z, d x z ≤ d x y + d y z) (t : Node P) (ht : IsCoverTree d t) :
    ∀ q ∈ points t, d t.point q < 2 ^ (t.level + 1) := by
  intro q hq
  rw [(points_perm t).mem_iff, dfs_eq] at hq
  rcases List.mem_cons.1 hq with rfl | hq
  · rw [h0]; exact zpow_pos (by norm_num) _
  · obtain ⟨c, hc, hq⟩ := List.mem_flatMap.1 hq
    exact below_lt d htri t ht c hc q hq

/-- The distance of rational numbers. -/
def sampleDistance (x y : ℚ) : ℚ := |x - y|

/-- The hypotheses hold for the distance of rational numbers, and the insertion of some points raises the level of the tree. -/
example : (∀ x y, sampleDistance x y = sampleDistance y x) ∧
    (∀ x y z, sampleDistance x z ≤ sampleDistance x y + sampleDistance y z) :=
  ⟨fun x y => abs_sub_comm x y, fun x y z => abs_sub_le x y z⟩

example : ((insertRange sampleDistance 20 [0, 1, 10, 3, 3]).map fun t => t.map fun t => (points t, t.level)) =
    some (some ([10, 1, 0, 3, 3], 4)) := by
  decide +kernel

end Aleph
