import Verif.Model.StepFunction

/-!
# Step functions
-/

namespace Aleph.Spec

open Step

variable {α : Type}

/-- The intervals of a step function are proper intervals in ascending order; neighbours may share an end point. -/
structure IsStepFunction [LinearOrder α] (f : Fn α) : Prop where
  proper : ∀ e ∈ f, e.a < e.b
  ordered : f.Pairwise fun e e' => e.b ≤ e'.a

/-- The interval `e` is the only one of the function `f` that contains `x`. -/
def OnlyInterval [LinearOrder α] (f : Fn α) (x : α) (e : Interval α) : Prop :=
  e ∈ f ∧ e.a ≤ x ∧ x ≤ e.b ∧ ∀ e' ∈ f, e'.a ≤ x → x ≤ e'.b → e' = e

/-- No interval of the function `f` contains `x`. -/
def Outside [LinearOrder α] (f : Fn α) (x : α) : Prop := ∀ e ∈ f, ¬(e.a ≤ x ∧ x ≤ e.b)

/-- `x` is an end point of an interval of one of the functions. -/
def EndPoint (f g : Fn α) (x : α) : Prop := ∃ e, (e ∈ f ∨ e ∈ g) ∧ (x = e.a ∨ x = e.b)

/-- Two end points without another end point between them. -/
def Adjacent [LinearOrder α] (f g : Fn α) (p q : α) : Prop :=
  EndPoint f g p ∧ EndPoint f g q ∧ p < q ∧ ∀ r, EndPoint f g r → r ≤ p ∨ q ≤ r

end Aleph.Spec
