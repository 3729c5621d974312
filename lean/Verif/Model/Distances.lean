import Mathlib.Algebra.Order.Group.Abs
import Mathlib.Algebra.Order.Ring.Defs

/-!
# Distance functors for vectors

Models `include/aleph/geometry/distances/{Manhattan,Hamming,Euclidean,Traits,Wrapper}.hh`.

A vector is the list of its coordinates, `size` is the length of the first vector.  Reading past the end of the second
vector is undefined behaviour (`none`).  Exact arithmetic: no rounding.
-/

namespace Aleph

namespace Distances

variable {α : Type}

/-- The second loop, `Manhattan.hh:98-102`, `Hamming.hh:98-102`, `Euclidean.hh:121-125`: one coordinate after the other;
`f` is the contribution of a coordinate. -/
def single [Add α] (f : α → α → α) : α → List α → List α → Option α
  | r, [], _ => some r
  | _, _ :: _, [] => none
  | r, x :: a, y :: b => single f (r + f x y) a b

/-- The first loop, `Manhattan.hh:79-96` and `Hamming.hh:79-96`: groups of four coordinates as long as at least four of
them remain (`lastGroup` is three positions before the end), with an early return if `worst` is positive and
exceeded. -/
def grouped [Add α] [Zero α] [LT α] [DecidableLT α] (f : α → α → α) (worst : α) : α → List α → List α → Option α
  | r, x0 :: x1 :: x2 :: x3 :: a, b =>
    match b with
    | y0 :: y1 :: y2 :: y3 :: b =>
      let r' := r + (f x0 y0 + f x1 y1 + f x2 y2 + f x3 y3)
      if 0 < worst ∧ worst < r' then some r' else grouped f worst r' a b
    | _ => none
  | r, a, b => single f r a b

/-- `Manhattan::operator()`, `Manhattan.hh:56-105`. -/
def manhattan [LinearOrder α] [AddCommGroup α] (worst : α) (a b : List α) : Option α :=
  grouped (fun x y => |x - y|) worst 0 a b

/-- `Hamming::operator()`, `Hamming.hh:56-105`. -/
def hamming [LinearOrder α] [Ring α] (worst : α) (a b : List α) : Option α :=
  grouped (fun x y => if x ≠ y then 1 else 0) worst 0 a b

/-- `Euclidean::operator()` for vectors, `Euclidean.hh:77-128`: the squared distance.  `lastGroup` is three positions
before the beginning of the vector (`Euclidean.hh:97-100`), so that the loop over groups of four coordinates is never
entered and `worst` has no effect. -/
def euclidean [Ring α] (_worst : α) (a b : List α) : Option α :=
  single (fun x y => (x - y) * (x - y)) 0 a b

/-- `Euclidean::operator()` for points of the plane, `Euclidean.hh:47-61`. -/
def euclideanPoint [LinearOrder α] [Ring α] (p q : α × α) : α :=
  let dx := if q.1 < p.1 then p.1 - q.1 else q.1 - p.1
  let dy := if q.2 < p.2 then p.2 - q.2 else q.2 - p.2
  dx * dx + dy * dy

/-- `Wrapper::operator()`, `Wrapper.hh:38-41`; `from` is the conversion of the traits class (`Traits.hh:28-31`,
`Euclidean.hh:159-162`). -/
def wrapper [Zero α] [One α] [Neg α] (metric : α → List α → List α → Option α) (convert : α → α) (a b : List α) :
    Option α :=
  (metric (-1) a b).map convert

end Distances

end Aleph
