import Mathlib.Algebra.Field.Defs
import Mathlib.Data.List.Sort

/-!
# Compensated summation

Models `include/aleph/math/KahanSummation.hh` over exact arithmetic (a field).
-/

namespace Aleph

/-- `KahanSummation`, `KahanSummation.hh:13-60`. -/
structure Kahan (α : Type) where
  sum : α
  c : α

namespace Kahan

variable {α : Type}

/-- The constructor, `KahanSummation.hh:19-23`. -/
def init [Zero α] (x : α) : Kahan α := ⟨x, 0⟩

/-- `operator+=`, `KahanSummation.hh:25-33`. -/
def add [Add α] [Sub α] (k : Kahan α) (v : α) : Kahan α :=
  let y := v - k.c
  let t := k.sum + y
  ⟨t, (t - k.sum) - y⟩

/-- `operator-=`, `KahanSummation.hh:35-38`. -/
def sub [Add α] [Sub α] [Neg α] (k : Kahan α) (v : α) : Kahan α := k.add (-v)

/-- `operator*=`, `KahanSummation.hh:40-44`. -/
def mul [Mul α] (k : Kahan α) (v : α) : Kahan α := { k with sum := k.sum * v }

/-- `operator/=`, `KahanSummation.hh:46-50`. -/
def div [Div α] (k : Kahan α) (v : α) : Kahan α := { k with sum := k.sum / v }

/-- The operations of the class, `KahanSummation.hh:25-50`. -/
inductive Op (α : Type)
  | add (v : α)
  | sub (v : α)
  | mul (v : α)
  | div (v : α)

/-- One call, `KahanSummation.hh:25-50`. -/
def step [Add α] [Sub α] [Neg α] [Mul α] [Div α] (k : Kahan α) : Op α → Kahan α
  | .add v => k.add v
  | .sub v => k.sub v
  | .mul v => k.mul v
  | .div v => k.div v

/-- `accumulate_kahan`, `KahanSummation.hh:71-79`. -/
def accumulate [Zero α] [Add α] [Sub α] (l : List α) (x : α) : α := (l.foldl add (init x)).sum

/-- `accumulate_kahan_sorted`, `KahanSummation.hh:86-97`. -/
def accumulateSorted [Zero α] [Add α] [Sub α] [LinearOrder α] (l : List α) (x : α) : α :=
  ((l.insertionSort (· ≤ ·)).foldl add (init x)).sum

end Kahan

end Aleph
