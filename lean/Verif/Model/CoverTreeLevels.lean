import Verif.Model.CoverTree

/-!
# Levels of cover trees, and their harmony

Models the remaining functions of `include/aleph/geometry/CoverTree.hh`.  `none` stands for a null pointer that is dereferenced, or for a loop that has not finished within the given
number of rounds.  `sort` is `std::sort` for points in descending order of a key.  Output on the standard error stream is omitted.
-/

namespace Aleph.CoverTree

variable {P α : Type}

/-- `std::multimap::insert`: a new element follows those with the same key. -/
def insertUpper (x : ℤ × P) : List (ℤ × P) → List (ℤ × P)
  | [] => [x]
  | y :: l => if x.1 < y.1 then x :: y :: l else y :: insertUpper x l

/-- `getNodesByLevel`, `CoverTree.hh:332-357`; the elements of the multimap in their order. -/
def nodesByLevel (t : Option (Node P)) : Option (List (ℤ × P)) :=
  match t with
  | none => none
  | some t => some ((bfs (fun t => [(t.level, t.point)]) (size t + 1) [t]).foldl (fun m x => insertUpper x m) [])

/-- `nodesToLevel`, `CoverTree.hh:368-393`; the elements of the map, in the order of their insertion (simplification: a `std::map` sorts them).  `std::map::insert` does not replace elements. -/
def nodesToLevel [DecidableEq P] (t : Option (Node P)) : Option (List (P × ℤ)) :=
  match t with
  | none => none
  | some t => some ((bfs (fun t => [(t.point, t.level)]) (size t + 1) [t]).foldl (fun m x => if x.1 ∈ m.map Prod.fst then m else m ++ [x]) [])

section

variable [Field α] [LinearOrder α] (d : P → P → α)

mutual
/-- The loop of `isHarmonic` and `checkDistance`, `CoverTree.hh:604-636, 703-732`: all values of `current`. -/
def descend (p : P) : Node P → List (Node P)
  | .mk q l cs => .mk q l cs :: descendChildren p cs
/-- The loop over the children, `CoverTree.hh:616-630`: the first child that covers the point is the next node. -/
def descendChildren (p : P) : List (Node P) → List (Node P)
  | [] => []
  | c :: cs => if d p c.point ≤ coveringDistance c.level then descend p c else descendChildren p cs
end

/-- The distances in the order in which they are stored, `CoverTree.hh:611-613`. -/
def distances (p : P) (t : Node P) : List α := ((descend d p t).filter fun x => d p x.point ≤ coveringDistance x.level).map fun x => d p x.point

/-- `std::is_sorted` with `std::less_equal`, `CoverTree.hh:638-641`. -/
def isSorted : List α → Bool
  | x :: y :: l => !decide (y ≤ x) && isSorted (y :: l)
  | _ => true

/-- The loop that decreases the level, `CoverTree.hh:656-659`; the second argument bounds the number of rounds. -/
def lower (m : α) : ℕ → ℤ → Option ℤ
  | 0, _ => none
  | k + 1, l => if m ≤ coveringDistance l then lower m k (l - 1) else some (l + 1)

/-- `isHarmonic`, `CoverTree.hh:599-696`: the result, and the tree afterwards. -/
def isHarmonic [DecidableEq P] (sort : (P → α) → List P → List P) (rounds : ℕ) (t : Option (Node P)) (p : P) : Option (Bool × Option (Node P)) :=
  match t with
  | none => some (true, none)
  | some t =>
    let harmonic := isSorted (distances d p t).reverse
    match distances d p t with
    | x :: y :: l =>
      match lower ((y :: l).foldl max x) rounds t.level with
      | none => none
      | some level =>
        if level < t.level then
          match (descend d p t).getLast? with
          | none => none
          | some current =>
            match (sort (d current.point) ((points t).filter (· ≠ current.point))).foldlM (insert d rounds) (some (.mk current.point level [])) with
            | none => none
            | some t => some (harmonic, t)
        else some (harmonic, some t)
    | _ => some (harmonic, some t)

end

end Aleph.CoverTree
