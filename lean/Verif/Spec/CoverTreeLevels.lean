import Verif.Model.CoverTree

/-!
# Levels of cover trees, and paths in them
-/

namespace Aleph.Spec

open CoverTree

variable {P α : Type}

/-- A node of a tree stores a point at a level. -/
inductive StoredAt : Node P → P → ℤ → Prop
  | root (p : P) (l : ℤ) (children : List (Node P)) : StoredAt (.mk p l children) p l
  | child (q : P) (m : ℤ) (children : List (Node P)) (c : Node P) (p : P) (l : ℤ) : c ∈ children → StoredAt c p l → StoredAt (.mk q m children) p l

/-- The path of a point through a tree: from every node, it continues to the first child whose distance to the point is at most `2 ^ l`, where `l` is the level of the child. -/
inductive Descent [Field α] [LinearOrder α] (d : P → P → α) (p : P) : Node P → List (P × ℤ) → Prop
  | stop (q : P) (l : ℤ) (children : List (Node P)) : (∀ c ∈ children, 2 ^ c.level < d p c.point) → Descent d p (.mk q l children) [(q, l)]
  | step (q : P) (l : ℤ) (before after : List (Node P)) (c : Node P) (path : List (P × ℤ)) : (∀ x ∈ before, 2 ^ x.level < d p x.point) → d p c.point ≤ 2 ^ c.level → Descent d p c path →
      Descent d p (.mk q l (before ++ c :: after)) ((q, l) :: path)

/-- The distances of a point to those nodes of its path that cover it. -/
def CoverDistances [Field α] [LinearOrder α] (d : P → P → α) (p : P) (path : List (P × ℤ)) (ds : List α) : Prop :=
  ∃ covering : List (P × ℤ), covering = path.filter (fun x => d p x.1 ≤ 2 ^ x.2) ∧ ds = covering.map fun x => d p x.1

/-- A function that sorts in descending order of keys. -/
def SortsDown [LinearOrder α] (sort : (P → α) → List P → List P) : Prop := ∀ key l, (sort key l).Perm l ∧ (sort key l).Pairwise fun a b => key b ≤ key a

end Aleph.Spec
