import Verif.Model.Complex
import Verif.Model.Diagram

/-!
# Euler characteristics

Models `include/aleph/persistentHomology/EulerCharacteristic.hh`.  Integers are unbounded; the products of a signed sign
and an unsigned count wrap around in the code, but the final conversion to a signed type undoes this.
`persistentEulerCharacteristic` (lines 86-109) does not compile when instantiated (`it->dimension` lacks the call) and is
not modelled.
-/

namespace Aleph

variable {α : Type}

/-- `cardinality[d]`, `EulerCharacteristic.hh:24-30`. -/
def cardinality (K : Complex α) (d : Nat) : Nat := (K.map Complex.dim).count d

/-- The loop with alternating sign, `EulerCharacteristic.hh:32-37` and `64-71`: dimensions below `n`. -/
def alternatingLoop (f : Nat → Nat) (n : Nat) : Int :=
  ((List.range n).foldl (fun (st : Int × Int) d => (st.1 + st.2 * (f d : Int), st.2 * -1)) (0, 1)).1

/-- `eulerCharacteristic(K)`, `EulerCharacteristic.hh:15-40`. -/
def eulerCharacteristic (K : Complex α) : Int :=
  match K.dimension with
  | none => 0
  | some d => alternatingLoop (cardinality K) d

/-- `betti[ it->dimension() ] = it->betti()` for a sequence of diagrams, `EulerCharacteristic.hh:55-58`: the last diagram
of a dimension counts, dimensions without diagram have value zero. -/
def bettiMap [DecidableEq α] (inf : α) (l : List (Diagram α)) (d : Nat) : Nat :=
  match l.reverse.find? (fun D => D.dimension == d) with
  | some D => D.betti inf
  | none => 0

/-- `eulerCharacteristic(begin, end)`, `EulerCharacteristic.hh:47-74`. -/
def eulerCharacteristicOfDiagrams [DecidableEq α] (inf : α) (l : List (Diagram α)) : Int :=
  if l.isEmpty then 0
  else alternatingLoop (bettiMap inf l) ((l.map (·.dimension)).foldr max 0)

end Aleph
