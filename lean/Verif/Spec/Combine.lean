/-! # Calling a function on the elements of a list until it asks to stop -/

namespace Aleph.Spec

variable {σ τ : Type}

/-- Calls `f` on the elements of a list one after the other and stops as soon as it returns `true`. -/
def runUntil (f : σ → τ → σ × Bool) : σ → List τ → σ × Bool
  | s, [] => (s, false)
  | s, x :: l =>
    match f s x with
    | (s, true) => (s, true)
    | (s, false) => runUntil f s l

end Aleph.Spec
