import Verif.Spec.Bootstrap
import Verif.Spec.PiecewiseLinear
import Verif.Spec.Strings
import Verif.Spec.TriangulationReader
import Mathlib.Algebra.BigOperators.Group.List.Basic
import Mathlib.Data.Real.Basic

/-!
# Specification: confidence bands of piecewise linear functions
-/

namespace Aleph.Spec

open Triangulation (Content Ignored)

variable {α : Type}

/-- A line of a file with points: it is empty, a comment, or contains a point. -/
def FunctionLine (scan : List Char → Option (α × α)) (l : List Char) (entry : Option (α × α)) : Prop :=
  Ignored l ∧ entry = none ∨ ¬Ignored l ∧ ∃ t p, Content l t ∧ scan t = some p ∧ entry = some p

/-- A file with points, one in each line. -/
def IsFunctionFile (scan : List Char → Option (α × α)) (file : Option (List Char)) (points : List (α × α)) : Prop :=
  ∃ text ls b entries, file = some text ∧ Lines text ls b ∧ List.Forall₂ (FunctionLine scan) ls entries ∧ points = entries.filterMap id

/-- The text for a function: one line for each point. -/
inductive IsFunctionText (print : α → List Char) : List (α × α) → List Char → Prop
  | nil : IsFunctionText print [] []
  | cons (x y : α) (f : List (α × α)) (text : List Char) : IsFunctionText print f text → IsFunctionText print ((x, y) :: f) (print x ++ '\t' :: print y ++ '\n' :: text)

/-- The mean of the functions through some lists of points has value `y` at `x`. -/
def IsMeanAt [LinearOrder α] [Field α] (functions : List (List (α × α))) (x y : α) : Prop :=
  ∃ values, List.Forall₂ (fun f v => ValueAt f x v) functions values ∧ y * (functions.length : α) = values.sum

/-- The means of two families of functions differ by at most `r`. -/
def MeansWithin (functions sample : List (List (ℝ × ℝ))) (r : ℝ) : Prop := ∀ x y z, IsMeanAt functions x y → IsMeanAt sample x z → |z - y| ≤ r

/-- All functions have the same domain. -/
def SameDomain [LinearOrder α] (functions : List (List (α × α))) : Prop := ∀ f ∈ functions, ∀ g ∈ functions, ∀ x, InDomain f x ↔ InDomain g x

end Aleph.Spec
