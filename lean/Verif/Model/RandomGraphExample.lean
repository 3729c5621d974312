import Verif.Model.GmlWriter
import Verif.Model.RandomGraph
import Mathlib.Algebra.Field.Defs

/-!
# The example `create_random_graph`

Models `examples/create_random_graph.cc`.

Simplifications: messages on standard error are not modelled.  The numbers of the random distribution are given by a sequence.
-/

namespace Aleph.RandomGraphExample

variable {β : Type}

/-- What may happen instead of an ordinary end of the program: an exception, or too many iterations. -/
inductive Failure
  | exception
  | fuel
  deriving DecidableEq

/-- `std::stoul` followed by a conversion to `unsigned`, and `std::stod` (`none` is an exception). -/
structure Context (β : Type) where
  stoul : List Char → Option ℕ
  stod : List Char → Option β

/-- The options, `create_random_graph.cc:46-51`, with their arguments; any other option is skipped. -/
inductive Opt
  | cardinality (word : List Char)
  | probability (word : List Char)
  | weighted
  | unknown
  deriving DecidableEq

/-- The variables that are set by options, `create_random_graph.cc:53-55`. -/
structure Settings (β : Type) where
  p : β
  n : ℕ
  weighted : Bool

/-- The cases of the `switch`, `create_random_graph.cc:61-74`; `none` is an exception. -/
def setOption (c : Context β) (s : Settings β) : Opt → Option (Settings β)
  | .cardinality word => (c.stoul word).map fun n => { s with n := n }
  | .probability word => (c.stod word).map fun p => { s with p := p }
  | .weighted => some { s with weighted := true }
  | .unknown => some s

/-- The initial values and the loop over all options, `create_random_graph.cc:53-76`. -/
def settings [Field β] (c : Context β) (opts : List Opt) : Option (Settings β) := opts.foldlM (setOption c) ⟨1 / 4, 100, false⟩

/-- Output of numbers of type `short`. -/
def printShort (d : ℤ) : List Char := (if d < 0 then ['-'] else []) ++ Utilities.decimal d.natAbs

/-- `storeGraph`, `create_random_graph.cc:38-42`. -/
def storeGraph {α : Type} (represent : α → List Char) (K : Complex α) : Except Failure (List Char) :=
  match GmlWriter.write {} represent K with
  | none => .error .exception
  | some text => .ok text

/-- `main`, `create_random_graph.cc:44-92`: the text on standard output.  `fuel` bounds the number of iterations of the inner loop of the weighted generator. -/
def main [Field β] [LinearOrder β] (c : Context β) (draw : ℕ → β) (fuel : ℕ) (opts : List Opt) : Except Failure (List Char) :=
  match settings c opts with
  | none => .error .exception
  | some s =>
    if s.weighted then
      match RandomGraph.weighted draw s.n s.p fuel with
      | none => .error .fuel
      | some K => storeGraph Utilities.decimal K
    else storeGraph printShort (RandomGraph.erdosRenyi draw s.n s.p)

end Aleph.RandomGraphExample
