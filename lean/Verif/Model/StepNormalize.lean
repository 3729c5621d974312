import Verif.Model.StepFunction

/-!
# Normalization of step functions

Models the function `normalize` of `include/aleph/math/StepFunction.hh`, for a field (no rounding; for integers, the division in line 392 truncates).
-/

namespace Aleph.Step

variable {α : Type}

/-- Subtraction of a scalar, `StepFunction.hh:359-362`. -/
def subScalar [LinearOrder α] [Ring α] (f : Fn α) (c : α) : Fn α := addScalar f (-c)

/-- The values of a function as elements of a `std::set`, `StepFunction.hh:557-558`. -/
def values [LinearOrder α] (f : Fn α) : List α := (image f).dedup.insertionSort (· ≤ ·)

/-- `normalize`, `StepFunction.hh:553-574`; `none` is an exception. -/
def normalize [LinearOrder α] [Field α] (f : Fn α) (a b : α) : Option (Fn α) :=
  if (values f).isEmpty || (values f).length == 1 then some f
  else
    match (values f).getLast? with
    | none => none
    | some max =>
      let min := (0 : α)
      let g := subScalar f min
      match sdiv g (max - min) with
      | none => none
      | some g => some (addScalar (smul g (b - a)) a)

end Aleph.Step
