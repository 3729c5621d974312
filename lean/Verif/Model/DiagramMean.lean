import Verif.Model.Wasserstein

/-!
# The mean of persistence diagrams

Models `include/aleph/persistenceDiagrams/Mean.hh`.  The solver of assignment problems (`Munkres.hh`, modelled in `Verif/Model/Munkres.lean`) is a
parameter: a function that yields the reduced matrix.  The variables `cost` and `newCost`, which are never used, are not modelled; neither are the data
races of the parallel loops in lines 197-208 and 266-277 that result from them.  An error stands for an exception.
-/

namespace Aleph.DiagramMean

variable {α : Type}

/-- `detail::Pairing`, `Mean.hh:33-45`. -/
structure Pairing (α : Type) where
  cost : α
  pairs : List (ℕ × ℕ)

/-- `std::pow( x, 2 )`, the default argument of `Mean.hh:52`. -/
def square [Mul α] (x : α) : α := x * x

/-- `detail::optimalPairing`, `Mean.hh:47-171`; the matrix of costs (lines 58-145) is the one of the Wasserstein distance. -/
def optimalPairing [Field α] [LinearOrder α] (solver : ℕ → (ℕ → ℕ → α) → ℕ → ℕ → α) (top : α) (D1 D2 : Diagram α) : Except Unit (Pairing α) :=
  if D1.dimension ≠ D2.dimension then .error ()
  else
    let size := D1.points.length + D2.points.length
    let costs := wassersteinCosts square top infinityDistance D1 D2
    let M := solver size costs
    .ok ⟨totalCosts size M costs, Munkres.matching size M⟩

/-- The inner loop of the mean, `Mean.hh:238-254`: the sums of the coordinates of the partners and their number.  An index that is out of range raises an
exception. -/
def partners [Field α] (i : ℕ) : List (Diagram α × Pairing α) → α × α × ℕ → Except Unit (α × α × ℕ)
  | [], acc => .ok acc
  | (diagram, pairing) :: rest, (x0, y0, num) =>
    match pairing.pairs[i]? with
    | none => .error ()
    | some (_, second) =>
      match diagram.points[second]? with
      | some point => partners i rest (x0 + point.1, y0 + point.2, num + 1)
      | none => partners i rest (x0, y0, num)

/-- One point of the new diagram, `Mean.hh:217-259`. -/
def meanPoint [Field α] (diagrams : List (Diagram α)) (pairings : List (Pairing α)) (point : α × α) (i : ℕ) : Except Unit (α × α) :=
  match partners i (diagrams.zip pairings) (0, 0, 0) with
  | .error e => .error e
  | .ok (x0, y0, num) =>
    let x1 := (point.1 + point.2) / 2
    let y1 := (point.1 + point.2) / 2
    .ok ((x0 + ((diagrams.length - num : ℕ) : α) * x1) / (pairings.length : α), (y0 + ((diagrams.length - num : ℕ) : α) * y1) / (pairings.length : α))

/-- The loop over all points, `Mean.hh:214-260`, from index `i` on. -/
def meanPoints [Field α] (diagrams : List (Diagram α)) (pairings : List (Pairing α)) : ℕ → List (α × α) → Except Unit (List (α × α))
  | _, [] => .ok []
  | i, point :: rest =>
    match meanPoint diagrams pairings point i with
    | .error e => .error e
    | .ok p =>
      match meanPoints diagrams pairings (i + 1) rest with
      | .error e => .error e
      | .ok l => .ok (p :: l)

/-- The loop over all diagrams, `Mean.hh:197-207` and `Mean.hh:271-281`. -/
def pairingsOf [Field α] [LinearOrder α] (solver : ℕ → (ℕ → ℕ → α) → ℕ → ℕ → α) (top : α) (Y : Diagram α) : List (Diagram α) → Except Unit (List (Pairing α))
  | [] => .ok []
  | D :: rest =>
    match optimalPairing solver top Y D with
    | .error e => .error e
    | .ok p =>
      match pairingsOf solver top Y rest with
      | .error e => .error e
      | .ok l => .ok (p :: l)

/-- The loop of the mean, `Mean.hh:210-291`, with a bound on the number of iterations; `none` if it is exceeded.  A new diagram has dimension zero, and
pairings are compared by their costs (`Mean.hh:38-41`). -/
def loop [Field α] [LinearOrder α] (solver : ℕ → (ℕ → ℕ → α) → ℕ → ℕ → α) (top : α) (diagrams : List (Diagram α)) :
    ℕ → Diagram α → List (Pairing α) → Option (Except Unit (Diagram α))
  | 0, _, _ => none
  | fuel + 1, Y, pairings =>
    match meanPoints diagrams pairings 0 Y.points with
    | .error e => some (.error e)
    | .ok points =>
      let Z : Diagram α := points.foldl (fun Z p => Z.add p.1 p.2) Diagram.empty
      let Y := Z.removeDiagonal
      match pairingsOf solver top Y diagrams with
      | .error e => some (.error e)
      | .ok newPairings =>
        if newPairings.map (·.cost) = pairings.map (·.cost) then some (.ok Y)
        else loop solver top diagrams fuel Y newPairings

/-- `mean`, `Mean.hh:175-294`; `choice` is the random index. -/
def mean [Field α] [LinearOrder α] (solver : ℕ → (ℕ → ℕ → α) → ℕ → ℕ → α) (top : α) (diagrams : List (Diagram α)) (choice fuel : ℕ) :
    Option (Except Unit (Diagram α)) :=
  match diagrams[choice]? with
  | none => some (.error ())
  | some D =>
    let Y := D.removeDiagonal
    match pairingsOf solver top Y diagrams with
    | .error e => some (.error e)
    | .ok pairings => loop solver top diagrams fuel Y pairings

end Aleph.DiagramMean
