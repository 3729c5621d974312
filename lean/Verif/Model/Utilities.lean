import Mathlib.Data.List.Basic
import Mathlib.Analysis.SpecialFunctions.Log.Base
import Mathlib.Algebra.Ring.Defs

/-!
# Points, formatted numbers and operators for vectors

Models `include/aleph/geometry/Point.hh`, `include/aleph/utilities/Format.hh`, `include/aleph/utilities/ContainerOperators.hh` and
`include/aleph/utilities/Values.hh`.
-/

namespace Aleph.Utilities

/-- `Point::operator==`, `Point.hh:81-84`: `std::equal` with the range of the first point and the beginning of the second.  A point is the list of its coordinates
(`Point.hh:42-50`); `none` if memory after the end of the second point is read. -/
def pointEq {α : Type} [DecidableEq α] : List α → List α → Option Bool
  | [], _ => some true
  | _ :: _, [] => none
  | a :: p, b :: q => if a = b then pointEq p q else some false

/-- `Point::operator!=`, `Point.hh:87-90`. -/
def pointNe {α : Type} [DecidableEq α] (p q : List α) : Option Bool := (pointEq p q).map not

/-- `Point::operator<`, `Point.hh:97-103`: `std::lexicographical_compare`. -/
def pointLt {α : Type} [LinearOrder α] : List α → List α → Bool
  | _, [] => false
  | [], _ :: _ => true
  | a :: p, b :: q => if a < b then true else if b < a then false else pointLt p q

/-- `operator<<` for points, `Point.hh:111-122`; `out` is the output of a coordinate. -/
def pointOut {α : Type} (out : α → List Char) (p : List α) : List Char :=
  (p.zipIdx.map fun c => (if c.2 ≠ 0 then [' '] else []) ++ out c.1).flatten

/-- The output of an unsigned number by a stream. -/
def decimal (n : ℕ) : List Char :=
  if h : n < 10 then [Char.ofNat (48 + n)] else decimal (n / 10) ++ [Char.ofNat (48 + n % 10)]
termination_by n
decreasing_by omega

/-- `format`, `Format.hh:25-33`, for unsigned numbers.  Logarithms are exact.  `none` for the maximum 0: its logarithm is infinite, and its conversion to `int` is not defined. -/
noncomputable def format (n N : ℕ) (fill : Char) : Option (List Char) :=
  if N = 0 then none
  else
    let width := (⌊Real.logb 10 N + 1⌋).toNat
    some (List.replicate (width - (decimal n).length) fill ++ decimal n)

/-- `operator*`, `ContainerOperators.hh:40-52`; `cast` is the conversion of the scalar to the type of the elements. -/
def scale {U V : Type} [Mul U] (cast : V → U) (lambda : V) (v : List U) : List U := v.map fun x => cast lambda * x

/-- `operator+`, `ContainerOperators.hh:63-72`; `none` if the assertion fails. -/
def add {T : Type} [Add T] (lhs rhs : List T) : Option (List T) :=
  if lhs.length = rhs.length then some (List.zipWith (· + ·) lhs rhs) else none

/-- `operator-`, `ContainerOperators.hh:83-92`; `none` if the assertion fails. -/
def sub {T : Type} [Sub T] (lhs rhs : List T) : Option (List T) :=
  if lhs.length = rhs.length then some (List.zipWith (· - ·) lhs rhs) else none

open Classical in
/-- The loop of `allclose`, `ContainerOperators.hh:115-119`. -/
noncomputable def allcloseLoop (rtol atol : ℝ) : List ℝ → List ℝ → Bool
  | a :: l, b :: m => if |a - b| > atol + rtol * |b| then false else allcloseLoop rtol atol l m
  | _, _ => true

/-- `allclose`, `ContainerOperators.hh:100-122`. -/
noncomputable def allclose (l m : List ℝ) (rtol atol : ℝ) : Bool :=
  if l.length ≠ m.length then false else allcloseLoop rtol atol l m

/-- `ensureRange`, `Values.hh:21-26`; `none` if an exception is thrown. -/
def ensureRange {T : Type} [LinearOrder T] (x lower upper : T) : Option Unit :=
  let valid := decide (x ≥ lower) && decide (x ≤ upper)
  if !valid then none else some ()

/-- `ensureLarger`, `Values.hh:36-41`; `none` if an exception is thrown. -/
def ensureLarger {T : Type} [LinearOrder T] (x lower : T) : Option Unit :=
  let valid := decide (x > lower)
  if !valid then none else some ()

end Aleph.Utilities
