import Verif.Model.Diagram
import Verif.Model.PiecewiseLinear

/-!
# Envelopes of persistence diagrams

Models `include/aleph/persistenceDiagrams/Envelope.hh`.  Data are elements of an ordered field (no rounding, no undefined values).

The loop dereferences iterators behind the last element of a vector.  The model makes this explicit: `junk` are the points found in the
memory behind the vector, and reading behind them ends the program with `none`.
-/

namespace Aleph.Envelope

variable {α : Type} [LinearOrder α]

/-- The comparison of points, `Envelope.hh:59-66`. -/
def before (p q : α × α) : Bool := if p.1 ≠ q.1 then decide (p.1 < q.1) else decide (p.2 < q.2)

/-- The loop `while( next->x() == x )`, `Envelope.hh:84-89`: `it` is the current point, the list starts with `*next`.  The result is the point
that `it` refers to after the loop, and the memory behind it. -/
def advance (x : α) : α × α → List (α × α) → Option ((α × α) × List (α × α))
  | _, [] => none
  | it, next :: rest => if next.1 = x then advance x next rest else some (it, next :: rest)

/-- The loop over all values of `X`, `Envelope.hh:79-94`; the list contains the memory behind `it`.  (The assertion never fails.) -/
def loop : List α → α × α → List (α × α) → Option (List (α × α))
  | [], _, _ => some []
  | x :: X, it, rest => do
    let (it, rest) ← advance x it rest
    let coordinates ← loop X it rest
    some ((it.1, it.2) :: coordinates)

/-- The points in the new coordinate system, `Envelope.hh:50-66`. -/
def transform [Field α] (D : Diagram α) : List (α × α) :=
  (D.points.map fun p => (p.1 + p.2, p.2 - p.1)).insertionSort fun p q => before q p = false

/-- `Envelope::operator()`, `Envelope.hh:43-97`. -/
def envelope [Field α] (inf : α) (removeUnpairedPoints : Bool) (junk : List (α × α)) (D : Diagram α) : Option (Pl.Fn α) :=
  let D := if removeUnpairedPoints then D.removeUnpaired inf else D
  let P := transform D
  let X := P.foldl (fun X p => Pl.setInsert p.1 X) []
  let coordinates := match P with
    | [] => some []
    | it :: rest => loop X it (rest ++ junk)
  coordinates.bind Pl.construct

end Aleph.Envelope
