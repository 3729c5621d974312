import Mathlib.Algebra.Order.Group.Defs
import Mathlib.Data.List.Range
import Mathlib.Algebra.BigOperators.Group.List.Basic

/-!
# The assignment solver

Models `include/aleph/persistenceDiagrams/distances/detail/Munkres.hh` and the part of `detail/Matrix.hh` it uses.

A square matrix of size `n` is a function of the row and the column (`Matrix.hh:81-92`); only indices below `n` are
accessed.  Loops that treat all entries independently of each other are written as functions of the
entry; the order matters in all other loops, which are folds or recursive functions.  Entries are taken
from an ordered group (no rounding, no overflow, no NaN); `top` is `numeric_limits<T>::max()`.
-/

namespace Aleph.Munkres

variable {T : Type}

/-- Assignment to an entry, `Matrix.hh:81-84`. -/
def set {β : Type} (f : ℕ → ℕ → β) (r c : ℕ) (x : β) : ℕ → ℕ → β :=
  fun i j => if i = r ∧ j = c then x else f i j

/-- Assignment to an entry of a mask, `Munkres.hh:430-431`. -/
def setMask (f : ℕ → Bool) (r : ℕ) (x : Bool) : ℕ → Bool := fun i => if i = r then x else f i

/-- The attributes of the solver, `Munkres.hh:425-431`, and the variables `row`, `col`
of `Munkres.hh:99-100`. -/
structure State (T : Type) where
  matrix : ℕ → ℕ → T
  stars : ℕ → ℕ → Bool
  primes : ℕ → ℕ → Bool
  rowMask : ℕ → Bool
  colMask : ℕ → Bool
  row : ℕ
  col : ℕ

/-- The constructor, `Munkres.hh:82-89`. -/
def init (matrix : ℕ → ℕ → T) : State T :=
  ⟨matrix, fun _ _ => false, fun _ _ => false, fun _ => false, fun _ => false, 0, 0⟩

/-- The minimum of a row, `Munkres.hh:152-155`. -/
def rowMinimum [LinearOrder T] (n : ℕ) (matrix : ℕ → ℕ → T) (row : ℕ) : T :=
  (List.range n).foldl (fun min col => Min.min min (matrix row col)) (matrix row 0)

/-- `subtractRowMinimum`, `Munkres.hh:146-160`. -/
def subtractRowMinimum [LinearOrder T] [Sub T] (n : ℕ) (matrix : ℕ → ℕ → T) : ℕ → ℕ → T :=
  fun row col => matrix row col - rowMinimum n matrix row

/-- `findUncoveredZeroInMatrix`, `Munkres.hh:162-182`; `none` stands for `false`. -/
def findUncoveredZero [DecidableEq T] [Zero T] (n : ℕ) (S : State T) : Option (ℕ × ℕ) :=
  (List.range n).findSome? fun row =>
    if S.rowMask row then none
    else ((List.range n).find? fun col => !S.colMask col && S.matrix row col == 0).map fun col => (row, col)

/-- The loop over the columns of a row in `step1`, `Munkres.hh:192-217`: the remaining columns, the stars and primes. -/
def step1Row [DecidableEq T] [Zero T] (n : ℕ) (matrix : ℕ → ℕ → T) (row : ℕ) :
    List ℕ → (ℕ → ℕ → Bool) × (ℕ → ℕ → Bool) → (ℕ → ℕ → Bool) × (ℕ → ℕ → Bool)
  | [], p => p
  | col :: cols, p =>
    if matrix row col = 0 then
      if (List.range n).any fun r => p.1 r col then step1Row n matrix row cols p
      else if (List.range n).any fun c => p.1 row c then p
      else step1Row n matrix row cols (set p.1 row col true, set p.2 row col false)
    else step1Row n matrix row cols p

/-- `step1`, `Munkres.hh:186-224`. -/
def step1 [DecidableEq T] [Zero T] (n : ℕ) (S : State T) : State T :=
  let p := (List.range n).foldl (fun p row => step1Row n S.matrix row (List.range n) p) (S.stars, S.primes)
  { S with stars := p.1, primes := p.2 }

/-- The number of stars, counted in `Munkres.hh:232-244`. -/
def coveredColumns (n : ℕ) (S : State T) : ℕ :=
  ((List.range n).map fun row => (List.range n).countP fun col => S.stars row col).sum

/-- `step2`, `Munkres.hh:229-250`: the next step and the new state. -/
def step2 (n : ℕ) (S : State T) : ℕ × State T :=
  (if coveredColumns n S ≥ n then 0 else 3,
    { S with colMask := fun col => S.colMask col || (List.range n).any fun row => S.stars row col })

/-- `step3`, `Munkres.hh:255-279`. -/
def step3 [DecidableEq T] [Zero T] (n : ℕ) (S : State T) : ℕ × State T :=
  match findUncoveredZero n S with
  | none => (5, S)
  | some (row, col) =>
    let S := { S with primes := set S.primes row col true, stars := set S.stars row col false,
                      row := row, col := col }
    match (List.range n).find? fun c => S.stars row c with
    | some c => (3, { S with rowMask := setMask S.rowMask row true, colMask := setMask S.colMask c false })
    | none => (4, S)

/-- The loop that collects the alternating sequence of primes and stars, `Munkres.hh:300-342`.  The first argument bounds
the number of rounds, `none` if it is exceeded (shown not to happen). -/
def collect (n : ℕ) (stars primes : ℕ → ℕ → Bool) : ℕ → ℕ → List (ℕ × ℕ) → Option (List (ℕ × ℕ))
  | 0, _, _ => none
  | f + 1, c, sequence =>
    match (List.range n).find? fun r => stars r c && !sequence.contains (r, c) with
    | none => some sequence
    | some r =>
      match (List.range n).find? fun c' => primes r c' && !(sequence ++ [(r, c)]).contains (r, c') with
      | none => some (sequence ++ [(r, c)])
      | some c' => collect n stars primes f c' (sequence ++ [(r, c)] ++ [(r, c')])

/-- One round of the loop over the sequence, `Munkres.hh:346-358`. -/
def flip (p : (ℕ → ℕ → Bool) × (ℕ → ℕ → Bool)) (x : ℕ × ℕ) : (ℕ → ℕ → Bool) × (ℕ → ℕ → Bool) :=
  let p := if p.1 x.1 x.2 then (set p.1 x.1 x.2 false, set p.2 x.1 x.2 false) else p
  if p.2 x.1 x.2 then (set p.1 x.1 x.2 true, set p.2 x.1 x.2 false) else p

/-- `step4`, `Munkres.hh:281-379`. -/
def step4 (n : ℕ) (S : State T) : Option (State T) :=
  (collect n S.stars S.primes (n + 1) S.col [(S.row, S.col)]).map fun sequence =>
    let p := sequence.foldl flip (S.stars, S.primes)
    { S with
      stars := fun row col => if p.2 row col then false else p.1 row col
      primes := fun row col => if p.2 row col then false else p.2 row col
      rowMask := fun _ => false
      colMask := fun _ => false }

/-- The smallest uncovered value, `Munkres.hh:384-397`. -/
def smallestUncovered [LinearOrder T] [Zero T] (top : T) (n : ℕ) (S : State T) : T :=
  (List.range n).foldl (fun v row =>
    if S.rowMask row then v
    else (List.range n).foldl (fun v col =>
      if S.colMask col then v
      else if S.matrix row col ≠ 0 ∧ S.matrix row col < v then S.matrix row col else v) v) top

/-- `step5`, `Munkres.hh:381-418`. -/
def step5 [LinearOrder T] [AddCommGroup T] (top : T) (n : ℕ) (S : State T) : State T :=
  let v := smallestUncovered top n S
  let added := fun row col => if S.rowMask row then S.matrix row col + v else S.matrix row col
  { S with matrix := fun row col => if !S.colMask col then added row col - v else added row col }

/-- The loop of the solver, `Munkres.hh:102-122`; the first argument bounds the number of rounds. -/
def run [LinearOrder T] [AddCommGroup T] (top : T) (n : ℕ) : ℕ → ℕ → State T → Option (State T)
  | 0, _, _ => none
  | f + 1, step, S =>
    match step with
    | 0 => some S
    | 1 => run top n f 2 (step1 n S)
    | 2 => run top n f (step2 n S).1 (step2 n S).2
    | 3 => run top n f (step3 n S).1 (step3 n S).2
    | 4 => (step4 n S).bind fun S => run top n f 2 S
    | 5 => run top n f 3 (step5 top n S)
    | _ => none

/-- `Munkres::operator()`, `Munkres.hh:93-140`: the reduced matrix.  `none`: not finished within the given number of
rounds. -/
def solve [LinearOrder T] [AddCommGroup T] (top : T) (n : ℕ) (matrix : ℕ → ℕ → T) (rounds : ℕ) :
    Option (ℕ → ℕ → T) :=
  (run top n rounds 1 (init (subtractRowMinimum n matrix))).map fun S =>
    fun row col => if S.stars row col then 0 else top

/-- `Munkres::cost`, `Munkres.hh:31-57`, for a stored matrix of size `n` and costs of the same size. -/
def cost [DecidableEq T] [AddCommGroup T] (n : ℕ) (matrix costs : ℕ → ℕ → T) : T :=
  ((List.range n).flatMap fun row =>
    ((List.range n).filter fun col => matrix row col = 0).map fun col => costs row col).foldl (· + ·) 0

/-- `Munkres::matching`, `Munkres.hh:65-78`. -/
def matching [DecidableEq T] [Zero T] (n : ℕ) (matrix : ℕ → ℕ → T) : List (ℕ × ℕ) :=
  (List.range n).flatMap fun row =>
    ((List.range n).filter fun col => matrix row col = 0).map fun col => (row, col)

end Aleph.Munkres
