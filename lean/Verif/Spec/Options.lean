import Mathlib.Data.Nat.Notation

/-!
# Specification: options of programs
-/

namespace Aleph.Spec

variable {Opt β : Type}

/-- The value `x` of a parameter is determined by the last option that sets it, and is a default value if there is none.  `pick` tells which options set the parameter, and
their arguments, which are converted by `conv`. -/
def IsLastValue (pick : Opt → Option (List Char)) (conv : List Char → Option β) (default : β) (opts : List Opt) (x : β) : Prop :=
  (∃ before o after w, opts = before ++ o :: after ∧ pick o = some w ∧ (∀ o' ∈ after, pick o' = none) ∧ conv w = some x) ∨
    ((∀ o ∈ opts, pick o = none) ∧ x = default)

end Aleph.Spec
