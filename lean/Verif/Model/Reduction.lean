import Verif.Model.Matrix

/-!
# Matrix reduction and persistence pairing

Models
* `include/aleph/persistentHomology/algorithms/Standard.hh`
* `include/aleph/persistentHomology/algorithms/Twist.hh`
* `include/aleph/persistentHomology/PersistencePairing.hh`
* `include/aleph/persistentHomology/Calculation.hh` (`calculatePersistencePairing`)

The look-up table `lut`, a vector of pairs `(column, flag)`, is modelled by a
list of `Option`s.  `none` as a result stands for: exception, an access of `lut` out of
bounds (undefined behaviour), or an exhausted step budget.  The theorems show
that `none` does not occur for matrices whose entries are valid indices, hence
in particular that the `while` loops terminate.
-/

namespace Aleph

/-- The `while` loop of `Standard.hh:35-40` (identical in `Twist.hh:40-45`) for
column `j`: as long as the maximum index `i` of column `j` is registered in
`lut`, add the registered column.  Returns the matrix and the final maximum
index. The first argument bounds the number of iterations. -/
def reduceColumn (k : Kind) (lut : List (Option Nat)) (j : Nat) :
    Nat → Rep → Option (Rep × Option Nat)
  | 0, _ => none
  | f + 1, r =>
    match r.getMaximumIndex j with
    | none => none
    | some none => some (r, none)
    | some (some i) =>
      match lut[i]? with
      | none => none
      | some none => some (r, some i)
      | some (some s) =>
        match r.addColumns k s j with
        | none => none
        | some r' => reduceColumn k lut j f r'

/-- Body of the loop of `Standard.hh:30-44`. -/
def standardStep (k : Kind) (fuel : Nat) (st : Rep × List (Option Nat)) (j : Nat) :
    Option (Rep × List (Option Nat)) :=
  match reduceColumn k st.2 j fuel st.1 with
  | none => none
  | some (r, none) => some (r, st.2)
  | some (r, some i) => some (r, st.2.set i (some j))

/-- `Standard::operator()`, `Standard.hh:21-45`. -/
def standard (k : Kind) (r : Rep) : Option Rep :=
  ((List.range r.numColumns).foldlM (standardStep k (r.numColumns + 1))
    (r, List.replicate r.numColumns none)).map Prod.fst

/-- Body of the loop of `StandardRectangular::operator()`, `Standard.hh:60-78`: a
column whose maximum index is not a column index is skipped. -/
def rectangularStep (k : Kind) (fuel : Nat) (st : Rep × List (Option Nat)) (j : Nat) :
    Option (Rep × List (Option Nat)) :=
  match st.1.getMaximumIndex j with
  | none => none
  | some mi =>
    if st.1.numColumns ≤ mi.getD 0 then some st
    else standardStep k fuel st j

/-- `StandardRectangular::operator()`, `Standard.hh:51-79`. -/
def standardRectangular (k : Kind) (r : Rep) : Option Rep :=
  ((List.range r.numColumns).foldlM (rectangularStep k (r.numColumns + 1))
    (r, List.replicate r.numColumns none)).map Prod.fst

/-- Body of the inner loop of `Twist.hh:33-53` for dimension `d`. -/
def twistStep (k : Kind) (fuel d : Nat) (st : Rep × List (Option Nat)) (j : Nat) :
    Option (Rep × List (Option Nat)) :=
  match st.1.getDimension j with
  | none => none
  | some dj =>
    if dj = d then
      match reduceColumn k st.2 j fuel st.1 with
      | none => none
      | some (r, none) => some (r, st.2)
      | some (r, some i) =>
        match r.clearColumn i with
        | none => none
        | some r' => some (r', st.2.set i (some j))
    else some st

/-- The dimensions visited by the outer loop of `Twist.hh:31`: from the dimension of
the matrix down to one. -/
def twistDims (d : Nat) : List Nat := (List.range d).reverse.map (· + 1)

/-- `Twist::operator()`, `Twist.hh:21-55`. -/
def twist (k : Kind) (r : Rep) : Option Rep :=
  ((twistDims r.dimension).foldlM
    (fun st d => (List.range r.numColumns).foldlM (twistStep k (r.numColumns + 1) d) st)
    (r, List.replicate r.numColumns none)).map Prod.fst

/-- The template parameter `ReductionAlgorithm` of `Calculation.hh:57`. -/
inductive Algorithm
  | standard
  | rectangular
  | twist
deriving DecidableEq, Repr

/-- Run a reduction algorithm on a representation, `Calculation.hh:70-71`. -/
def Algorithm.run (a : Algorithm) (k : Kind) (r : Rep) : Option Rep :=
  match a with
  | .standard => Aleph.standard k r
  | .rectangular => Aleph.standardRectangular k r
  | .twist => Aleph.twist k r

/-- `std::numeric_limits<Index>::max()` for the default index type `unsigned`
(32 bit): the default of parameter `max` in `Calculation.hh:61` and the
destroyer of unpaired entries in `PersistencePairing.hh:57-60`. -/
def idxMax : Nat := 2 ^ 32 - 1

/-- Loop state of `Calculation.hh:73-75`; the unordered sets are modelled by lists. -/
structure PairState where
  pairing : List (Nat × Nat)
  creators : List Nat
  destroyers : List Nat
deriving DecidableEq, Repr

/-- The test `max > numColumns || u < max`, `Calculation.hh:108` and `140`. -/
def admissible (n max u : Nat) : Bool := n < max || u < max

/-- Index pair reported for column `j` with maximum index `i`,
`Calculation.hh:87-99`. -/
def reportPair (n : Nat) (dual : Bool) (i j : Nat) : Nat × Nat :=
  if dual then (n - 1 - j, n - 1 - i) else (i, j)

/-- Body of the loop `Calculation.hh:79-128` for column `j` of the reduced
matrix `B`; `inc` is `includeAllUnpairedCreators`. -/
def pairStep (B : BM) (inc : Bool) (max : Nat) (st : PairState) (j : Nat) : PairState :=
  let n := B.numColumns
  match (B.col j).getLast? with
  | some i =>
    let uv := reportPair n B.dual i j
    { pairing := if admissible n max uv.1 then st.pairing ++ [uv] else st.pairing
      creators := st.creators.erase i
      destroyers := uv.2 :: st.destroyers }
  | none =>
    if (!B.dual && B.dim j != B.rep.dimension) || (B.dual && B.dim j != 0) || inc then
      { st with creators := st.creators ++ [j] }
    else st

/-- Lexicographic order of index pairs: `operator<` of `std::pair`, used by
`std::sort` in `Calculation.hh:144`. -/
def pairLE (a b : Nat × Nat) : Prop := a.1 < b.1 ∨ (a.1 = b.1 ∧ a.2 ≤ b.2)

instance : DecidableRel pairLE := fun a b => by unfold pairLE; infer_instance

/-- Final loop `Calculation.hh:130-142`: the entries added for unpaired creators. -/
def unpairedEntries (B : BM) (max : Nat) (st : PairState) : List (Nat × Nat) :=
  let n := B.numColumns
  ((st.creators.map fun c => if B.dual then n - 1 - c else c).filter
    fun c => !(st.destroyers.contains c) && admissible n max c).map fun c => (c, idxMax)

/-- Reading off the pairing of a reduced matrix, `Calculation.hh:73-145`. -/
def readPairing (B : BM) (inc : Bool) (max : Nat) : List (Nat × Nat) :=
  let st := (List.range B.numColumns).foldl (pairStep B inc max) ⟨[], [], []⟩
  (st.pairing ++ unpairedEntries B max st).insertionSort pairLE

/-- `calculatePersistencePairing`, `Calculation.hh:56-146`. -/
def calculatePersistencePairing (a : Algorithm) (k : Kind) (M : BM)
    (inc : Bool := false) (max : Nat := idxMax) : Option (List (Nat × Nat)) :=
  match a.run k M.rep with
  | none => none
  | some r => some (readPairing ⟨r, M.dual⟩ inc max)

end Aleph
