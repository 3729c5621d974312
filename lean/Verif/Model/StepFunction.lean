import Mathlib.Algebra.Order.Group.Unbundled.Abs
import Mathlib.Algebra.Order.Ring.Defs
import Mathlib.Algebra.Field.Defs
import Mathlib.Data.List.Sort

/-!
# Step functions

Models `include/aleph/math/StepFunction.hh`.

Domain and image are the same ordered ring (no rounding, no overflow).  `none` stands for a program that terminates because a
function marked `noexcept` throws, or for undefined behaviour.
-/

namespace Aleph.Step

variable {α : Type}

/-- `IndicatorFunction`, `StepFunction.hh:73-172`. -/
structure Interval (α : Type) where
  a : α
  b : α
  y : α
deriving DecidableEq

/-- `StepFunction`: the elements of the set `_indicatorFunctions` in their order, `StepFunction.hh:501`. -/
abbrev Fn (α : Type) := List (Interval α)

/-- `contains`, `StepFunction.hh:98-101`. -/
def Interval.contains [LinearOrder α] (f : Interval α) (x : α) : Bool := f.a ≤ x && x ≤ f.b

/-- `IndicatorFunction::operator()`, `StepFunction.hh:116-122`. -/
def Interval.eval [LinearOrder α] [Zero α] (f : Interval α) (x : α) : α := if f.contains x then f.y else 0

/-- `std::set::insert` with the comparison `operator<` of `StepFunction.hh:161-166`: nothing happens if an element of the set is
neither smaller nor larger.  (All elements have `a < b`.) -/
def insert [LinearOrder α] (n : Interval α) : Fn α → Fn α
  | [] => [n]
  | e :: l => if n.b ≤ e.a then n :: e :: l else if e.b ≤ n.a then e :: insert n l else e :: l

/-- `add`, `StepFunction.hh:175-178`, with the constructor `82-89`.  If `a > b`, the constructor throws, and `add` is marked
`noexcept`.  If `a = b`, the interval is smaller than itself, which is not permitted for elements of a set. -/
def add [LinearOrder α] (f : Fn α) (a b y : α) : Option (Fn α) :=
  if a < b then some (insert ⟨a, b, y⟩ f) else none

/-- `domain`, `StepFunction.hh:181-188`. -/
def domain (f : Fn α) : List α := f.flatMap fun e => [e.a, e.b]

/-- `image`, `StepFunction.hh:191-195`. -/
def image (f : Fn α) : List α := f.map Interval.y

/-- `operator()`, `StepFunction.hh:198-224`. -/
def eval [LinearOrder α] [AddCommGroup α] (f : Fn α) (x : α) : α :=
  ((f.dropWhile fun e => !e.contains x).takeWhile fun e => e.contains x).foldl
    (fun value e => if |e.eval x| > value then e.eval x else value) 0

/-- `max`, `StepFunction.hh:227-238`; `lowest` is `numeric_limits::lowest()`. -/
def max [LinearOrder α] [Zero α] (lowest : α) (f : Fn α) : α :=
  if f.isEmpty then 0 else f.foldl (fun m e => Max.max m e.y) lowest

/-- `integral`, `StepFunction.hh:404-415` and `104-107`. -/
def integral [Ring α] (f : Fn α) : α := f.foldl (fun value e => value + e.y * (e.b - e.a)) 0

/-- The copy loops of the scalar operations: every interval is added to an empty function with a new value. -/
def rebuild [LinearOrder α] (g : α → α) (f : Fn α) : Fn α :=
  f.foldl (fun h e => insert ⟨e.a, e.b, g e.y⟩ h) []

/-- Unary minus, `StepFunction.hh:337-345`. -/
def neg [LinearOrder α] [Ring α] (f : Fn α) : Fn α := rebuild (fun y => -y) f

/-- Addition of a scalar, `StepFunction.hh:348-356`. -/
def addScalar [LinearOrder α] [Ring α] (f : Fn α) (c : α) : Fn α := rebuild (fun y => c + y) f

/-- `operator*=`, `StepFunction.hh:365-376`. -/
def smul [LinearOrder α] [Ring α] (f : Fn α) (c : α) : Fn α := rebuild (fun y => y * c) f

/-- `operator/=`, `StepFunction.hh:387-393`; `none` is the exception for a division by zero. -/
def sdiv [LinearOrder α] [Field α] (f : Fn α) (c : α) : Option (Fn α) :=
  if c = 0 then none else some (smul f (1 / c))

/-- `abs`, `StepFunction.hh:432-441`. -/
def abs [LinearOrder α] [Ring α] (f : Fn α) : Fn α := rebuild (fun y => |y|) f

/-- One round of the loop over the domain in `operator+=`, `StepFunction.hh:268-304`: the state consists of the new function
and `prev`. -/
def sumStep [LinearOrder α] [Ring α] (next previous : α → α) (f g : Fn α) (s : Fn α × α) (curr : α) :
    Option (Fn α × α) :=
  let prev := s.2
  let y1 := eval f prev
  let y2 := eval g prev
  let y3 := eval f curr
  let y4 := eval g curr
  let y5 := eval f (next prev)
  let y6 := eval g (next prev)
  if y1 = y3 ∧ y2 = y4 then (add s.1 prev curr (y1 + y2)).map fun h => (h, curr)
  else
    let prev := if y1 ≠ y5 ∨ y2 ≠ y6 then next prev else prev
    if y5 + y6 ≠ y3 + y4 then
      (add s.1 prev (previous curr) (y5 + y6)).bind fun h =>
        (add h curr (next curr) (y3 + y4)).map fun h => (h, next curr)
    else (add s.1 prev (next curr) (y3 + y4)).map fun h => (h, next curr)

/-- The loop that joins intervals with the same value in `clean`, `StepFunction.hh:489-497`.  Reading the value of the
end iterator in line 489 is undefined, but its value does not matter, because the loop stops in any case. -/
def join [LinearOrder α] : Interval α → Fn α → Fn α → Fn α
  | cur, [], h => insert cur h
  | cur, e :: l, h => if e.y = cur.y then join ⟨cur.a, e.b, cur.y⟩ l h else join e l (insert cur h)

/-- `clean`, `StepFunction.hh:469-498`. -/
def clean [LinearOrder α] (f : Fn α) : Fn α :=
  match f.filter fun e => e.a ≠ e.b with
  | [] => []
  | e :: l => join e l []

/-- `operator+=`, `StepFunction.hh:247-312`; the domain is a set, i.e. sorted and without duplicates. -/
def sum [LinearOrder α] [Ring α] (next previous : α → α) (f g : Fn α) : Option (Fn α) :=
  match ((domain f ++ domain g).insertionSort (· ≤ ·)).dedup with
  | [] => some f
  | x :: l => (l.foldlM (sumStep next previous f g) ([], x)).map fun s => clean s.1

end Aleph.Step
