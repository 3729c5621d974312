import Verif.Model.Wasserstein
import Verif.Model.Bottleneck
import Verif.Model.DiagramKernels
import Verif.Model.PersistenceIndicator
import Verif.Model.StepNormalize
import Verif.Model.Envelope
import Verif.Model.Filesystem
import Mathlib.Data.Real.Sqrt
import Mathlib.Analysis.SpecialFunctions.Pow.Real

/-!
# The tool `topological_distance`

Models `src/tools/topological_distance.cc`.

Data are real numbers without rounding; infinity is one of them (`inf`).  The power is a positive natural number (the tool accepts any number).
The diagnostic output on `std::cerr` is not modelled, and neither is the conversion of the arguments of options.  Reading files is a parameter.
-/

namespace Aleph.TopologicalDistance

noncomputable section

/-- What may happen instead of an ordinary end of the program: an exception (also one thrown in the parallel loop, which terminates the program),
undefined behaviour, a calculation that does not end. -/
inductive Failure
  | exception
  | undefined
  | unfinished
  deriving DecidableEq

/-- The options, `topological_distance.cc:392-409`. -/
inductive Opt
  | factor (x : ℝ)
  | power (p : ℕ)
  | sigma (x : ℝ)
  | bottleneck
  | clean
  | envelope
  | exp
  | hausdorff
  | indicator
  | kernel
  | list
  | normalize
  | removeDuplicates
  | scaleSpace
  | wasserstein
  | verbose

/-- The variables set by options, `topological_distance.cc:411-425`. -/
structure Settings where
  infinityFactor : ℝ := 0
  power : ℕ := 2
  sigma : ℝ := 1
  cleanPersistenceDiagrams : Bool := false
  useBottleneckDistance : Bool := false
  useExponentialFunction : Bool := false
  useEnvelopeFunctionDistance : Bool := false
  useIndicatorFunctionDistance : Bool := false
  normalize : Bool := false
  calculateKernel : Bool := false
  useWassersteinDistance : Bool := false
  useScaleSpaceKernel : Bool := false
  list : Bool := false
  removeDuplicates : Bool := false
  verbose : Bool := false

/-- The cases of the `switch`, `topological_distance.cc:430-505`. -/
def setOption (s : Settings) : Opt → Settings
  | .factor x => { s with infinityFactor := x }
  | .power p => { s with power := p }
  | .sigma x => { s with sigma := x }
  | .bottleneck => { s with
      useBottleneckDistance := true
      useEnvelopeFunctionDistance := false
      useIndicatorFunctionDistance := false
      useScaleSpaceKernel := false
      useWassersteinDistance := false }
  | .clean => { s with cleanPersistenceDiagrams := true }
  | .envelope => { s with
      useEnvelopeFunctionDistance := true
      useBottleneckDistance := false
      useWassersteinDistance := false
      useIndicatorFunctionDistance := false }
  | .exp => { s with useExponentialFunction := true }
  | .hausdorff => { s with
      useWassersteinDistance := false
      useIndicatorFunctionDistance := false
      useScaleSpaceKernel := false
      useEnvelopeFunctionDistance := false }
  | .indicator => { s with
      useIndicatorFunctionDistance := true
      useEnvelopeFunctionDistance := false
      useScaleSpaceKernel := false
      useWassersteinDistance := false }
  | .kernel => { s with calculateKernel := true }
  | .list => { s with list := true }
  | .normalize => { s with normalize := true }
  | .removeDuplicates => { s with removeDuplicates := true }
  | .scaleSpace => { s with
      useEnvelopeFunctionDistance := false
      useScaleSpaceKernel := true
      useIndicatorFunctionDistance := false
      useWassersteinDistance := false
      calculateKernel := true }
  | .wasserstein => { s with
      useEnvelopeFunctionDistance := false
      useIndicatorFunctionDistance := false
      useScaleSpaceKernel := false
      useWassersteinDistance := true }
  | .verbose => { s with verbose := true }

/-- The loop over all options, `topological_distance.cc:427-506`. -/
def settings (opts : List Opt) : Settings := opts.foldl setOption {}

/-- `struct DataSet`, `topological_distance.cc:77-86`. -/
structure DataSet where
  name : List Char
  filename : List Char
  dimension : ℕ
  persistenceDiagram : Diagram ℝ
  persistenceIndicatorFunction : Step.Fn ℝ
  envelopeFunction : Pl.Fn ℝ

/-- Everything that the tool takes from elsewhere: the constants of the type `double` (`inf`, `lo`, `maxv`), its neighbouring values (`next` and
`previous`), the largest values of `unsigned` and `unsigned long`, the unspecified result of sorting, the number of rounds of the assignment
problem, the memory behind a vector, and the contents of files. -/
structure Context where
  next : ℝ → ℝ
  previous : ℝ → ℝ
  inf : ℝ
  lo : ℝ
  maxv : ℝ
  unsignedMax : ℕ
  ulongMax : ℕ
  sort : List (Bottleneck.Edge ℝ) → List (Bottleneck.Edge ℝ)
  rounds : ℕ
  junk : List (ℝ × ℝ)
  lines : List Char → List (List Char)
  load : List Char → Except Failure (Diagram ℝ)
  readJSON : List Char → Except Failure (List (Diagram ℝ))

/-! ### Postprocessing -/

/-- `getMaximum`, `topological_distance.cc:324-336`. -/
def getMaximum (c : Context) (D : Diagram ℝ) : ℝ :=
  D.points.foldl (fun m p =>
    let m := max m p.1
    if !Diagram.isUnpaired c.inf p then max m p.2 else m) c.lo

/-- `postprocess`, `topological_distance.cc:338-388`.  The parameter `normalize` is always `false`. -/
def postprocess (c : Context) (clean removeDuplicates : Bool) (infinityFactor : ℝ) (D : Diagram ℝ) : Diagram ℝ :=
  let D := if clean then (D.removeDiagonal).removeUnpaired c.inf else D
  let D := if removeDuplicates then D.removeDuplicates else D
  if infinityFactor ≠ 0 then
    let max := getMaximum c D
    { D with points := D.points.map fun p => if Diagram.isUnpaired c.inf p then (p.1, infinityFactor * max) else p }
  else D

/-! ### Names of files -/

/-- The characters that `.` does not match in a regular expression. -/
def isLineEnd (c : Char) : Bool := c == '\n' || c == '\r'

/-- The match of the regular expression `(.*)_[dk]([[:digit:]]+)\.txt`, `topological_distance.cc:550`, `:566` and `:583`, from the end of the text:
the suffix, the digits, the letter, the underscore and the rest. -/
def matchName (filename : List Char) : Option (List Char × List Char) :=
  match filename.reverse with
  | 't' :: 'x' :: 't' :: '.' :: rest =>
    let digits := rest.takeWhile Char.isDigit
    match digits, rest.dropWhile Char.isDigit with
    | [], _ => none
    | _, letter :: '_' :: name =>
      if (letter == 'd' || letter == 'k') && !name.any isLineEnd then some (name.reverse, digits.reverse) else none
    | _, _ => none
  | _ => none

/-- The value of decimal digits, as calculated by `std::stoul`. -/
def value (digits : List Char) : ℕ := digits.foldl (fun v d => 10 * v + (d.toNat - '0'.toNat)) 0

/-- The name of the data set, `topological_distance.cc:561-567`. -/
def nameOf (filename : List Char) : List Char := ((matchName filename).map (·.1)).getD filename

/-- The dimension of the data set, `topological_distance.cc:577-587`; numbers that are too large for `unsigned long` raise an exception, and the
conversion to `unsigned` takes a remainder. -/
def dimensionOf (c : Context) (filename : List Char) : Except Failure ℕ :=
  match matchName filename with
  | none => .ok 0
  | some (_, digits) => if value digits > c.ulongMax then .error .exception else .ok (value digits % (c.unsignedMax + 1))

/-- The indices of names, `topological_distance.cc:553-571`: the map and the next index. -/
def indices (filenames : List (List Char)) : (List Char → Option ℕ) × ℕ :=
  filenames.foldl (fun st filename =>
    if (st.1 (nameOf filename)).isNone then (fun x => if x = nameOf filename then some st.2 else st.1 x, st.2 + 1) else st) (fun _ => none, 0)

/-- Sorting files into groups, `topological_distance.cc:573-589`.  The subscript operator of the map gives zero for an unknown name, and the
function `at` raises an exception behind the last group. -/
def group (c : Context) (filenames : List (List Char)) : Except Failure (List (List (List Char × ℕ))) :=
  filenames.foldlM (fun groups filename => do
    let dimension ← dimensionOf c filename
    let i := ((indices filenames).1 (nameOf filename)).getD 0
    if i < groups.length then .ok (groups.modify i fun g => g ++ [(filename, dimension)]) else .error .exception)
    (List.replicate (indices filenames).2 [])

/-! ### Reading files -/

/-- The functions of a diagram, `topological_distance.cc:610-624` and `:658-680`. -/
def makeDataSet (c : Context) (s : Settings) (name filename : List Char) (dimension : ℕ) (D : Diagram ℝ) : Except Failure DataSet := do
  let pd := D.removeUnpaired c.inf
  let pif ← if s.useIndicatorFunctionDistance then
      match Pif.pif c.next c.inf pd.points with
      | some f => Except.ok f
      | none => Except.error Failure.exception
    else Except.ok []
  let ef ← if s.useEnvelopeFunctionDistance then
      match Envelope.envelope c.inf true c.junk pd with
      | some f => Except.ok f
      | none => Except.error Failure.undefined
    else Except.ok []
  .ok ⟨name, filename, dimension, D, pif, ef⟩

/-- Reading text files, `topological_distance.cc:548-629`. -/
def readText (c : Context) (s : Settings) (filenames : List (List Char)) : Except Failure (List (List DataSet)) := do
  let groups ← group c filenames
  groups.mapM fun g => g.mapM fun e => do
    let D ← c.load e.1
    makeDataSet c s (nameOf e.1) e.1 e.2 (postprocess c s.cleanPersistenceDiagrams s.removeDuplicates s.infinityFactor D)

/-- Reading JSON files, `topological_distance.cc:630-684`. -/
def readJson (c : Context) (s : Settings) (filenames : List (List Char)) : Except Failure (List (List DataSet)) :=
  filenames.mapM fun filename => do
    let diagrams ← c.readJSON filename
    diagrams.mapM fun D =>
      let D := postprocess c s.cleanPersistenceDiagrams s.removeDuplicates s.infinityFactor D
      makeDataSet c s (Filesystem.stem filename ++ ['_', 'd'] ++ Nat.toDigits 10 D.dimension) filename (D.dimension % (c.unsignedMax + 1)) D

/-- The names of files, `topological_distance.cc:522-543`. -/
def filenamesOf (c : Context) (s : Settings) (arguments : List (List Char)) : List (List Char) :=
  if s.list then
    match arguments with
    | [] => []
    | first :: _ => c.lines first
  else arguments

/-- Reading all files, `topological_distance.cc:546-685`; the first element of an empty vector is undefined. -/
def readAll (c : Context) (s : Settings) (filenames : List (List Char)) : Except Failure (List (List DataSet)) :=
  match filenames with
  | [] => .error .undefined
  | first :: _ =>
    if Filesystem.extension first = ['.', 't', 'x', 't'] then readText c s filenames
    else if Filesystem.extension first = ['.', 'j', 's', 'o', 'n'] then readJson c s filenames
    else .ok []

/-- The smallest and the largest dimension, `topological_distance.cc:518-519`, `:591-592`, `:650-652`. -/
def minDimension (c : Context) (sets : List (List DataSet)) : ℕ := (sets.flatten.map DataSet.dimension).foldl min c.unsignedMax

/-- The largest dimension, see `minDimension`. -/
def maxDimension (sets : List (List DataSet)) : ℕ := (sets.flatten.map DataSet.dimension).foldl max 0

/-! ### Distances -/

/-- `std::pow( x, 1.0 / p )`, `topological_distance.cc:301`: not a number (`none`) for negative numbers, unless `p` is one. -/
def root (p : ℕ) (x : ℝ) : Option ℝ := if x < 0 then (if p = 1 then some x else none) else some (x ^ (1 / (p : ℝ)))

/-- Looking for a data set of a dimension, `topological_distance.cc:179-183`, `:229-233`, `:279-283`. -/
def find (A : List DataSet) (dimension : ℕ) : Option DataSet := A.find? fun e => e.dimension == dimension

/-- The persistence diagram of a dimension, `topological_distance.cc:277-289`. -/
def diagramAt (A : List DataSet) (dimension : ℕ) : Diagram ℝ :=
  match find A dimension with
  | some e => e.persistenceDiagram
  | none => Diagram.empty

/-- The persistence indicator function of a dimension, `topological_distance.cc:177-189`. -/
def indicatorAt (A : List DataSet) (dimension : ℕ) : Step.Fn ℝ :=
  match find A dimension with
  | some e => e.persistenceIndicatorFunction
  | none => []

/-- The envelope function of a dimension, `topological_distance.cc:227-239`. -/
def envelopeAt (A : List DataSet) (dimension : ℕ) : Pl.Fn ℝ :=
  match find A dimension with
  | some e => e.envelopeFunction
  | none => []

/-- The dimensions of the loops, `topological_distance.cc:193`, `:243`, `:293`: the loop does not end if the last dimension is the largest value
of the type. -/
def dimensions (c : Context) (lo hi : ℕ) : Except Failure (List ℕ) :=
  if hi ≥ c.unsignedMax then .error .unfinished else .ok (List.range' lo (hi + 1 - lo))

/-- `StepFunction::pow`, `StepFunction.hh:444-453`. -/
def stepPow (p : ℕ) (f : Step.Fn ℝ) : Step.Fn ℝ := Step.rebuild (fun y => y ^ p) f

/-- The optional normalization, `topological_distance.cc:198-202`. -/
def normalizeIf (normalize : Bool) (f : Step.Fn ℝ) : Except Failure (Step.Fn ℝ) :=
  if normalize then
    match Step.normalize f 0 1 with
    | some f => .ok f
    | none => .error .exception
  else .ok f

/-- One round of the loop of `distancePIF`, `topological_distance.cc:195-208`. -/
def indicatorTerm (c : Context) (normalize : Bool) (power : ℕ) (A B : List DataSet) (dimension : ℕ) : Except Failure ℝ := do
  let f ← normalizeIf normalize (indicatorAt A dimension)
  let g ← normalizeIf normalize (indicatorAt B dimension)
  match Step.sum c.next c.previous f (Step.neg g) with
  | none => .error .exception
  | some h =>
    if power = 1 then .ok (Step.integral (Step.abs h)) else .ok (Step.integral (stepPow power (Step.abs h)))

/-- One round of the loop of `distanceEnvelopeFunctions`, `topological_distance.cc:245-252`. -/
def envelopeTerm (power : ℕ) (A B : List DataSet) (dimension : ℕ) : ℝ :=
  let f := envelopeAt A dimension
  let g := envelopeAt B dimension
  let h := Pl.abs (Pl.add f (Pl.neg g))
  if power = 1 then Pl.integral (fun x => x) 1 h else Pl.integral (fun x => x ^ (1 / (power : ℝ))) power h

/-- The functor, `topological_distance.cc:689-716`. -/
def functor (c : Context) (s : Settings) (D1 D2 : Diagram ℝ) : Except Failure ℝ :=
  if s.useScaleSpaceKernel then .ok (DiagramKernels.multiScaleKernel D1 D2 s.sigma)
  else if !s.useIndicatorFunctionDistance && !s.useEnvelopeFunctionDistance then
    if s.useWassersteinDistance then
      match wassersteinDistance (fun x => x ^ s.power) (fun x => x ^ (1 / (s.power : ℝ))) c.maxv infinityDistance D1 D2 c.rounds with
      | none => .error .unfinished
      | some (.error _) => .error .exception
      | some (.ok d) => .ok d
    else if s.useBottleneckDistance then
      match Bottleneck.bottleneckDistance c.sort infinityDistance D1 D2 with
      | none => .error .undefined
      | some d => .ok d
    else .ok (hausdorffDistance c.maxv c.lo c.inf infinityDistance D1 D2 ^ s.power)
  else .ok 0

/-- The sum over all dimensions, `topological_distance.cc:191-211`, `:241-255`, `:291-302`. -/
def total (c : Context) (lo hi : ℕ) (term : ℕ → Except Failure ℝ) : Except Failure ℝ := do
  let dims ← dimensions c lo hi
  dims.foldlM (fun d dimension => do
    let t ← term dimension
    .ok (d + t)) 0

/-- The distance of two data sets, `topological_distance.cc:752-759`; the result `none` is "not a number". -/
def distance (c : Context) (s : Settings) (lo hi : ℕ) (A B : List DataSet) : Except Failure (Option ℝ) :=
  if s.useIndicatorFunctionDistance then (total c lo hi (indicatorTerm c s.normalize s.power A B)).map some
  else if s.useEnvelopeFunctionDistance then (total c lo hi fun k => .ok (envelopeTerm s.power A B k)).map some
  else (total c lo hi fun k => functor c s (diagramAt A k) (diagramAt B k)).map (root s.power)

/-- The transformation to the value of a kernel, `topological_distance.cc:761-766`. -/
def transformValue (s : Settings) (d : ℝ) : ℝ :=
  if s.calculateKernel then (if s.useExponentialFunction then Real.exp (s.sigma * -d) else -d) else d

/-! ### The matrix -/

/-- The row of a pair of data sets, `topological_distance.cc:749`. -/
def rowOf (n k : ℕ) : ℕ :=
  ⌊((n - 2 : ℕ) : ℝ) - (⌊Real.sqrt (-8 * (k : ℝ) + ((4 * n * (n - 1) : ℕ) : ℝ) - 7) / 2 - 1 / 2⌋ : ℝ)⌋₊

/-- The column of a pair of data sets, `topological_distance.cc:750`; the calculation is done modulo a power of two, so that it agrees with
the one for integers. -/
def colOf (n k : ℕ) : ℕ :=
  ((k : ℤ) + rowOf n k + 1 - (n * (n - 1) / 2 : ℕ) + ((n - rowOf n k) * (n - rowOf n k - 1) / 2 : ℕ)).toNat

/-- The matrix: entries that are not a number are `none`. -/
abbrev Matrix := ℕ → ℕ → Option ℝ

/-- One round of the parallel loop, `topological_distance.cc:747-773`; the function `at` raises an exception. -/
def calculate (c : Context) (s : Settings) (lo hi : ℕ) (sets : List (List DataSet)) (M : Matrix) (k : ℕ) : Except Failure Matrix :=
  let row := rowOf sets.length k
  let col := colOf sets.length k
  match sets[row]?, sets[col]? with
  | some A, some B => do
    let d ← distance c s lo hi A B
    let d := d.map (transformValue s)
    let M : Matrix := fun i j => if i = row ∧ j = col then d else M i j
    .ok fun i j => if i = col ∧ j = row then d else M i j
  | _, _ => .error .exception

/-- The loop, `topological_distance.cc:739-774`; `order` is the order in which the rounds are executed.  (A data race is impossible, as no two
rounds write the same entry; see `C150_pairs`.) -/
def matrix (c : Context) (s : Settings) (order : List ℕ) (sets : List (List DataSet)) : Except Failure Matrix :=
  order.foldlM (calculate c s (minDimension c sets) (maxDimension sets) sets) fun _ _ => some 0

/-- `storeMatrix`, `topological_distance.cc:141-161`, for a square matrix. -/
def storeMatrix (print : Option ℝ → List Char) (n : ℕ) (M : Matrix) : List Char :=
  (List.range n).flatMap fun row =>
    ((List.range n).flatMap fun col => (if col ≠ 0 then [' '] else []) ++ print (M row col)) ++ ['\n']

/-- The output of the tool, `topological_distance.cc:390-790`.  The number of rounds is `n * (n - 1) / 2`; `schedule m` is the order of `m` rounds. -/
def run (c : Context) (schedule : ℕ → List ℕ) (print : Option ℝ → List Char) (opts : List Opt) (arguments : List (List Char)) : Except Failure (List Char) := do
  let s := settings opts
  if arguments.isEmpty then .ok []
  else
    let sets ← readAll c s (filenamesOf c s arguments)
    let M ← matrix c s (schedule (sets.length * (sets.length - 1) / 2)) sets
    .ok (storeMatrix print sets.length M)

end

end Aleph.TopologicalDistance
