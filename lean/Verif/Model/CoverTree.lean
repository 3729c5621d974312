import Mathlib.Algebra.Field.Basic
import Mathlib.Algebra.GroupWithZero.Basic
import Mathlib.Order.Defs.LinearOrder
import Mathlib.Data.List.Basic

/-!
# Cover trees

Models `include/aleph/geometry/CoverTree.hh`.

Distances are taken from an ordered field (no rounding, no overflow), levels are integers.  `none` stands for a null
pointer that is dereferenced, or for a loop that has not finished within the given number of rounds.
-/

namespace Aleph.CoverTree

variable {P α : Type}

/-- `CoverTree::Node`, `CoverTree.hh:54-261`: the point, the level, the children. -/
inductive Node (P : Type) where
  | mk (point : P) (level : ℤ) (children : List (Node P))

/-- `_point`, `CoverTree.hh:252`. -/
def Node.point : Node P → P
  | .mk p _ _ => p

/-- `_level`, `CoverTree.hh:253`. -/
def Node.level : Node P → ℤ
  | .mk _ l _ => l

/-- `_children`, `CoverTree.hh:260`. -/
def Node.children : Node P → List (Node P)
  | .mk _ _ cs => cs

/-- `isLeaf`, `CoverTree.hh:78-81`. -/
def Node.isLeaf (t : Node P) : Bool := t.children.isEmpty

/-- `coveringDistance`, `CoverTree.hh:66-69`. -/
def coveringDistance [Field α] (level : ℤ) : α := 2 ^ level

/-- `separatingDistance`, `CoverTree.hh:72-75`. -/
def separatingDistance [Field α] (level : ℤ) : α := 2 ^ (level - 1)

mutual
/-- `insert_`, `CoverTree.hh:227-250`. -/
def insertRec [Field α] [LinearOrder α] (d : P → P → α) (p : P) : Node P → Node P
  | .mk q l cs =>
    match insertChildren d p cs with
    | some cs' => .mk q l cs'
    | none => .mk q l (cs ++ [.mk p (l - 1) []])
/-- The loop over the children in `insert_`, `CoverTree.hh:229-241`; `none` if no child covers the point. -/
def insertChildren [Field α] [LinearOrder α] (d : P → P → α) (p : P) : List (Node P) → Option (List (Node P))
  | [] => none
  | c :: cs =>
    if d c.point p ≤ coveringDistance c.level then some (insertRec d p c :: cs)
    else (insertChildren d p cs).map (c :: ·)
end

/-- The loop over the children of a node in the search for a leaf, `CoverTree.hh:123-133`: children up to the first leaf are
pushed on the stack.  Nodes are identified by the positions of their ancestors among their siblings. -/
def scan (path : List ℕ) : ℕ → List (Node P) → List (List ℕ × Node P) →
    Option (List ℕ × Node P) × List (List ℕ × Node P)
  | _, [], stack => (none, stack)
  | i, c :: cs, stack =>
    if c.isLeaf then (some (path ++ [i], c), stack)
    else scan path (i + 1) cs ((path ++ [i], c) :: stack)

/-- The search for a leaf, `CoverTree.hh:103-134`.  It continues after a leaf has been found; the last one is used. -/
def search : ℕ → List (List ℕ × Node P) → Option (List ℕ × Node P) → Option (List ℕ × Node P)
  | 0, _, _ => none
  | _ + 1, [], best => best
  | f + 1, x :: stack, best =>
    match scan x.1 0 x.2.children stack with
    | (some leaf, stack) => search f stack (some leaf)
    | (none, stack) => search f stack best

mutual
/-- The number of nodes of a tree (bounds the number of rounds of the search). -/
def size : Node P → ℕ
  | .mk _ _ cs => sizes cs + 1
/-- The number of nodes of some trees. -/
def sizes : List (Node P) → ℕ
  | [] => 0
  | c :: cs => size c + sizes cs
end

/-- Removal of a node, `CoverTree.hh:155-172`. -/
def removeAt : List ℕ → Node P → Node P
  | [], t => t
  | [i], .mk p l cs => .mk p l (cs.eraseIdx i)
  | i :: j :: path, .mk p l cs => .mk p l (cs.modify i (removeAt (j :: path)))

/-- The loop that raises the level of the tree, `CoverTree.hh:93-196`; the first argument bounds the number of rounds. -/
def raise [Field α] [LinearOrder α] (d : P → P → α) (p : P) : ℕ → Node P → Option (Node P)
  | 0, _ => none
  | f + 1, t =>
    if d t.point p > 2 * coveringDistance t.level then
      if t.isLeaf then raise d p f (.mk t.point (t.level + 1) t.children)
      else
        match search (size t + 1) [([], t)] none with
        | none => none
        | some (path, leaf) => raise d p f (.mk leaf.point (t.level + 1) [removeAt path t])
    else some t

/-- `Node::insert`, `CoverTree.hh:83-220`. -/
def insertNode [Field α] [LinearOrder α] (d : P → P → α) (rounds : ℕ) (t : Node P) (p : P) : Option (Node P) :=
  if d t.point p > coveringDistance t.level then
    (raise d p rounds t).map fun t => .mk p (t.level + 1) [t]
  else some (insertRec d p t)

/-- `CoverTree::insert`, `CoverTree.hh:269-275`; the tree is `none` as long as it is empty. -/
def insert [Field α] [LinearOrder α] (d : P → P → α) (rounds : ℕ) (t : Option (Node P)) (p : P) :
    Option (Option (Node P)) :=
  match t with
  | none => some (some (.mk p 0 []))
  | some t => (insertNode d rounds t p).map some

/-- Insertion of a range, `CoverTree.hh:283-287`, starting from an empty tree. -/
def insertRange [Field α] [LinearOrder α] (d : P → P → α) (rounds : ℕ) (ps : List P) : Option (Option (Node P)) :=
  ps.foldlM (insert d rounds) none

/-- The breadth-first traversal, level by level, of `CoverTree.hh:400-418`. -/
def bfs {β : Type} (f : Node P → List β) : ℕ → List (Node P) → List β
  | 0, _ => []
  | _ + 1, [] => []
  | k + 1, ns => ns.flatMap f ++ bfs f k (ns.flatMap Node.children)

/-- `points`, `CoverTree.hh:396-421`. -/
def points (t : Node P) : List P := bfs (fun t => [t.point]) (size t + 1) [t]

/-- The loop of `checkLevelInvariant`, `CoverTree.hh:458-478`. -/
def levelLoop : ℕ → ℤ → List (Node P) → Bool
  | 0, _, _ => true
  | _ + 1, _, [] => true
  | k + 1, level, ns => ns.all (fun t => t.level == level - 1) && levelLoop k (level - 1) (ns.flatMap Node.children)

/-- `checkLevelInvariant`, `CoverTree.hh:449-479`. -/
def checkLevel (t : Node P) : Bool := levelLoop (size t + 1) (t.level + 1) [t]

/-- `checkCoveringInvariant`, `CoverTree.hh:487-521`. -/
def checkCovering [Field α] [LinearOrder α] (d : P → P → α) (t : Node P) : Bool :=
  (bfs (fun t => t.children.map fun c => decide (d t.point c.point ≤ coveringDistance t.level)) (size t + 1) [t]).all id

/-- The two nested loops over the children in `checkSeparatingInvariant`, `CoverTree.hh:541-566`. -/
def separated [Field α] [LinearOrder α] (d : P → P → α) (level : ℤ) : List (Node P) → Bool
  | [] => true
  | c :: cs => cs.all (fun c' => !decide (d c.point c'.point ≤ separatingDistance level)) && separated d level cs

/-- `checkSeparatingInvariant`, `CoverTree.hh:529-575`. -/
def checkSeparating [Field α] [LinearOrder α] (d : P → P → α) (t : Node P) : Bool :=
  (bfs (fun t => [separated d t.level t.children]) (size t + 1) [t]).all id

/-- `isValid`, `CoverTree.hh:583-588`. -/
def isValid [Field α] [LinearOrder α] (d : P → P → α) (t : Node P) : Bool :=
  checkLevel t && checkCovering d t && checkSeparating d t

end Aleph.CoverTree
