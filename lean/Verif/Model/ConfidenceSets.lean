import Verif.Model.Bootstrap
import Verif.Model.IndicatorTool

/-!
# The tool `persistence_indicator_function_confidence_sets`

Models `src/tools/persistence_indicator_function_confidence_sets.cc`.

Simplifications: numbers are real numbers (in particular, a level is never undefined); the output file can be written.  Messages on standard error are not modelled.
-/

namespace Aleph.ConfidenceSets

/-- `meanCalculation`, `persistence_indicator_function_confidence_sets.cc:27-36`.  (There is always at least one function.)  `none` stands for a program that is terminated, see `Step.sum`. -/
def mean {α : Type} [LinearOrder α] [Field α] (next previous : α → α) (functions : List (Step.Fn α)) : Option (Step.Fn α) :=
  (functions.foldlM (Step.sum next previous) []).bind fun sum => Step.sdiv sum (functions.length : α)

noncomputable section

/-- What may happen instead of an ordinary end of the program. -/
inductive Failure
  | exception
  | undefined
  deriving DecidableEq

/-- The numbers: the value that marks unpaired points, successor and predecessor, the smallest number, the conversions from and to words, reading two numbers from a line, `std::stod` and `std::stoul`
for options (`none` is an exception), and the random numbers. -/
structure Context where
  inf : ℝ
  next : ℝ → ℝ
  previous : ℝ → ℝ
  lowest : ℝ
  convert : List Char → ℝ
  print : ℝ → List Char
  scan : List Char → Option (ℝ × ℝ)
  stod : List Char → Option ℝ
  stoul : List Char → Option ℕ
  draw : ℕ → ℕ → ℕ

/-- The options, `persistence_indicator_function_confidence_sets.cc:54-60`. -/
inductive Opt
  | alpha (word : List Char)
  | bootstrap (word : List Char)
  | readStepFunctions
  | unknown

/-- The variables that are set by options, `persistence_indicator_function_confidence_sets.cc:49-51`. -/
structure Settings where
  alpha : ℝ
  numBootstrapSamples : ℕ
  readStepFunctions : Bool

/-- The cases of the `switch`, `persistence_indicator_function_confidence_sets.cc:65-81`; the number of samples is converted to 32 bits. -/
def setOption (c : Context) (s : Settings) : Opt → Option Settings
  | .alpha word => (c.stod word).map fun a => { s with alpha := a }
  | .bootstrap word => (c.stoul word).map fun n => { s with numBootstrapSamples := n % 4294967296 }
  | .readStepFunctions => some { s with readStepFunctions := true }
  | .unknown => none

/-- The loop over all options, `persistence_indicator_function_confidence_sets.cc:49-82`. -/
def settings (c : Context) (opts : List Opt) : Option Settings := opts.foldlM (setOption c) ⟨1 / 20, 50, false⟩

/-- `index`, `persistence_indicator_function_confidence_sets.cc:38-45`; `none` if the conversion to `unsigned` is undefined. -/
def index (samples : ℕ) (alpha : ℝ) : Option ℕ :=
  let c := ⌈(samples : ℝ) * alpha⌉
  if 0 ≤ c ∧ c < 2 ^ 32 then some (Bootstrap.decrement c.toNat) else none

/-- Loading a file, `persistence_indicator_function_confidence_sets.cc:99-119`; the argument is `none` for a file that cannot be opened. -/
def loadOne (c : Context) (readStepFunctions : Bool) (file : Option (List Char)) : Except Failure (Step.Fn ℝ) :=
  if readStepFunctions then
    match file with
    | none => .error .exception
    | some text =>
      match Step.read c.scan [] text with
      | none => .error .undefined
      | some f => .ok f
  else
    match TextReaders.loadDiagram c.convert file with
    | none => .error .exception
    | some D =>
      match Pif.pif c.next c.inf (D.removeDiagonal.removeUnpaired c.inf).points with
      | none => .error .undefined
      | some f => .ok f

/-- The loop over all files, `persistence_indicator_function_confidence_sets.cc:92-122`. -/
def loadAll (c : Context) (readStepFunctions : Bool) (files : List Char → Option (List Char)) : List (List Char) → Except Failure (List (Step.Fn ℝ))
  | [] => .ok []
  | path :: args =>
    match loadOne c readStepFunctions (files path) with
    | .error e => .error e
    | .ok f =>
      match loadAll c readStepFunctions files args with
      | .error e => .error e
      | .ok fs => .ok (f :: fs)

/-- The distance between a replicate and the mean, `persistence_indicator_function_confidence_sets.cc:141-145`. -/
def deviation (c : Context) (n : ℕ) (empiricalMean meanReplicate : Step.Fn ℝ) : Option ℝ :=
  (Step.sum c.next c.previous meanReplicate (Step.neg empiricalMean)).map fun f => Step.max c.lowest (Step.abs (Step.smul f (√(n : ℝ))))

/-- The output, `persistence_indicator_function_confidence_sets.cc:154-161`. -/
def output (c : Context) (n : ℕ) (empiricalMean : Step.Fn ℝ) (quantile : ℝ) : List Char :=
  let fLower := Step.addScalar empiricalMean (-(quantile / √(n : ℝ)))
  let fUpper := Step.addScalar empiricalMean (quantile / √(n : ℝ))
  Step.write c.print empiricalMean ++ "\n\n".toList ++ Step.write c.print fUpper ++ "\n\n".toList ++ Step.write c.print fLower ++ "\n".toList

/-- The mean, its replicates and the quantile, `persistence_indicator_function_confidence_sets.cc:124-161`: the files that are written. -/
def process (c : Context) (s : Settings) (functions : List (Step.Fn ℝ)) : Except Failure (List (List Char × List Char)) :=
  match Bootstrap.makeReplicates c.draw s.numBootstrapSamples functions (mean c.next c.previous) with
  | none => .error .exception
  | some meanReplicates =>
    match meanReplicates.mapM id, mean c.next c.previous functions with
    | some meanReplicates, some empiricalMean =>
      match meanReplicates.mapM (deviation c functions.length empiricalMean) with
      | none => .error .undefined
      | some theta =>
        let theta := theta.insertionSort (· ≤ ·)
        if theta.isEmpty then .ok []
        else
          match index s.numBootstrapSamples (1 - s.alpha) with
          | none => .error .undefined
          | some i =>
            match theta[i]? with
            | none => .error .exception
            | some quantile => .ok [("/tmp/Mean_plus_confidence.txt".toList, output c functions.length empiricalMean quantile)]
    | _, _ => .error .undefined

/-- `main`, `persistence_indicator_function_confidence_sets.cc:47-163`: the result and the files that are written.  The tests of the options are those of `utilities/Values.hh:21-26,36-41`. -/
def main (c : Context) (files : List Char → Option (List Char)) (opts : List Opt) (args : List (List Char)) : Except Failure (ℤ × List (List Char × List Char)) :=
  match settings c opts with
  | none => .error .exception
  | some s =>
    if ¬(0 ≤ s.alpha ∧ s.alpha ≤ 1) then .error .exception
    else if ¬0 < s.numBootstrapSamples then .error .exception
    else if args.isEmpty then .ok (0, [])
    else
      match loadAll c s.readStepFunctions files args with
      | .error e => .error e
      | .ok functions =>
        match process c s functions with
        | .error e => .error e
        | .ok out => .ok (0, out)

end

end Aleph.ConfidenceSets
