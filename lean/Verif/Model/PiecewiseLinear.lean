import Verif.Model.Kahan
import Mathlib.Algebra.Order.Ring.Defs
import Mathlib.Algebra.Order.Group.Unbundled.Abs

/-!
# Piecewise linear functions

Models `include/aleph/math/PiecewiseLinearFunction.hh`.

Domain and image are the same ordered field (no rounding, no overflow).  Division by zero yields zero in the model; the places
where this can occur are mentioned below.
-/

namespace Aleph.Pl

variable {α : Type}

/-- `PiecewiseLinearFunction`: the elements of the map `_data` in their order, `PiecewiseLinearFunction.hh:530`. -/
abbrev Fn (α : Type) := List (α × α)

/-- `std::map::insert`: nothing happens if the key exists. -/
def mapInsert [LinearOrder α] (p : α × α) : Fn α → Fn α
  | [] => [p]
  | q :: l => if p.1 < q.1 then p :: q :: l else if q.1 < p.1 then q :: mapInsert p l else q :: l

/-- `std::set::insert`. -/
def setInsert [LinearOrder α] (x : α) : List α → List α
  | [] => [x]
  | y :: l => if x < y then x :: y :: l else if y < x then y :: setInsert x l else y :: l

/-- Pairs of consecutive elements; the loops over `current` and `next`. -/
def pairs {β : Type} (l : List β) : List (β × β) := l.zip l.tail

/-- `lerp`, `PiecewiseLinearFunction.hh:27-30`. -/
def lerp [Field α] (x x0 y0 x1 y1 : α) : α := y0 + (y1 - y0) * (x - x0) / (x1 - x0)

/-- The intersections with the x-axis in `insertIntersectionPoints`, `PiecewiseLinearFunction.hh:497-523`. -/
def crossings [LinearOrder α] [Field α] (f : Fn α) : List α :=
  (pairs f).filterMap fun e =>
    let (x0, y0) := e.1
    let (x1, y1) := e.2
    if y0 * y1 < 0 then
      let m := (y1 - y0) / (x1 - x0)
      let c := y0 - m * x0
      some (-c / m)
    else none

/-- `insertIntersectionPoints`, `PiecewiseLinearFunction.hh:495-527`.  The intersections are stored in a set; they are found in
ascending order, so that the order of insertion is the same. -/
def insertIntersectionPoints [LinearOrder α] [Field α] (f : Fn α) : Fn α :=
  (crossings f).foldl (fun f x => mapInsert (x, 0) f) f

/-- The constructor, `PiecewiseLinearFunction.hh:66-86`; `none` is the exception for duplicate values. -/
def construct [LinearOrder α] [Field α] (l : List (α × α)) : Option (Fn α) :=
  (l.foldlM (fun (f : Fn α) p => if f.any fun q => q.1 = p.1 then none else some (mapInsert p f)) []).map insertIntersectionPoints

/-- `operator()`, `PiecewiseLinearFunction.hh:101-120`.  `begin` is the position of the first element that is not smaller than
`x`, `end` the position of the first element that is larger.  `none` of `getLast?` cannot occur, because `end` is not the first
position and `begin` is not an element with value `x`. -/
def eval [LinearOrder α] [Field α] (f : Fn α) (x : α) : α :=
  match f.dropWhile fun p => p.1 < x with
  | [] => 0
  | right :: _ =>
    if (f.takeWhile fun p => p.1 ≤ x).isEmpty then 0
    else if right.1 = x then right.2
    else
      match (f.takeWhile fun p => p.1 < x).getLast? with
      | some left => lerp x left.1 left.2 right.1 right.2
      | none => 0

/-- Unary minus, `PiecewiseLinearFunction.hh:166-174`. -/
def neg [Neg α] (f : Fn α) : Fn α := f.map fun p => (p.1, -p.2)

/-- `apply` for scalars, `PiecewiseLinearFunction.hh:370-377`: addition `139-143` and subtraction `177-181` of a scalar. -/
def applyScalar (op : α → α → α) (f : Fn α) (c : α) : Fn α := f.map fun p => (p.1, op p.2 c)

/-- `operator*=`, `PiecewiseLinearFunction.hh:190-196`. -/
def smul [Mul α] (f : Fn α) (c : α) : Fn α := f.map fun p => (p.1, p.2 * c)

/-- `operator/=`, `PiecewiseLinearFunction.hh:207-213`; `none` is the exception for a division by zero. -/
def sdiv [DecidableEq α] [Field α] (f : Fn α) (c : α) : Option (Fn α) := if c = 0 then none else some (smul f (1 / c))

/-- `abs`, `PiecewiseLinearFunction.hh:281-287`. -/
def abs [Lattice α] [AddGroup α] (f : Fn α) : Fn α := f.map fun p => (p.1, |p.2|)

/-- `max`, `PiecewiseLinearFunction.hh:290-301`; `lowest` is `numeric_limits::lowest()`. -/
def max [LinearOrder α] [Zero α] (lowest : α) (f : Fn α) : α :=
  if f.isEmpty then 0 else f.foldl (fun m p => Max.max m p.2) lowest

/-- The closure `intersection` in `apply`, `PiecewiseLinearFunction.hh:415-430`.  For parallel segments the denominator is zero; in
floating point arithmetic both quotients are infinite or not a number, so that the result is `x0`; in the model both are zero,
with the same result. -/
def intersection [LinearOrder α] [Field α] (x0 y0 x1 y1 x2 y2 x3 y3 : α) : α :=
  let s1x := x1 - x0
  let s1y := y1 - y0
  let s2x := x3 - x2
  let s2y := y3 - y2
  let s := (-s1y * (x0 - x2) + s1x * (y0 - y2)) / (-s2x * s1y + s1x * s2y)
  let t := (s2x * (y0 - y2) - s2y * (x0 - x2)) / (-s2x * s1y + s1x * s2y)
  if s ≥ 0 ∧ s ≤ 1 ∧ t ≥ 0 ∧ t ≤ 1 then x0 + t * s1x else x0

/-- The values in the domain of both functions, `PiecewiseLinearFunction.hh:395-401`. -/
def merged [LinearOrder α] (f g : Fn α) : List α :=
  g.foldl (fun s p => setInsert p.1 s) (f.foldl (fun s p => setInsert p.1 s) [])

/-- The intersections of both functions, `PiecewiseLinearFunction.hh:432-454`. -/
def intersections [LinearOrder α] [Field α] (f g : Fn α) : List α :=
  (pairs (merged f g)).filterMap fun e =>
    let x := intersection e.1 (eval f e.1) e.2 (eval f e.2) e.1 (eval g e.1) e.2 (eval g e.2)
    if x ≠ e.1 then some x else none

/-- `apply`, `PiecewiseLinearFunction.hh:392-473`. -/
def apply [LinearOrder α] [Field α] (op : α → α → α) (f g : Fn α) : Fn α :=
  if (merged f g).isEmpty then f
  else
    let xs := (intersections f g).foldl (fun s x => setInsert x s) (merged f g)
    xs.map fun x => (x, op (eval f x) (eval g x))

/-- `operator+=`, `PiecewiseLinearFunction.hh:125-128`. -/
def add [LinearOrder α] [Field α] (f g : Fn α) : Fn α := apply (fun a b => a + b) f g

/-- `operator-=`, `PiecewiseLinearFunction.hh:152-155`. -/
def sub [LinearOrder α] [Field α] (f g : Fn α) : Fn α := apply (fun a b => a - b) f g

/-- `operator==`, `PiecewiseLinearFunction.hh:251-270`. -/
def equal [LinearOrder α] [Field α] (f g : Fn α) : Bool := (merged f g).all fun x => eval f x = eval g x

/-- One segment of the integral, `PiecewiseLinearFunction.hh:328-350`, for a natural exponent `p`. -/
def segment [LinearOrder α] [Field α] (p : Nat) (u v : α × α) : α :=
  let (x1, y1) := u
  let (x2, y2) := v
  let m := (y2 - y1) / (x2 - x1)
  let c := y1 - m * x1
  let evaluator := fun x => if m = 0 then c ^ p * x else (m * x + c) ^ (p + 1) / (m * ((p : α) + 1))
  |evaluator x2 - evaluator x1|

/-- `integral`, `PiecewiseLinearFunction.hh:314-358`, for a natural exponent `p`; `root` is the function `std::pow(_, 1/p)` of the
last line. -/
def integral [LinearOrder α] [Field α] (root : α → α) (p : Nat) (f : Fn α) : α :=
  if f.isEmpty then 0
  else root (((pairs f).foldl (fun norm e => norm.add (segment p e.1 e.2)) (Kahan.init (0 : α))).sum)

end Aleph.Pl
