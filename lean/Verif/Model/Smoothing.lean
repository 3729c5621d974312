import Verif.Model.Bootstrap
import Verif.Model.PiecewiseLinear
import Verif.Model.Strings

/-!
# The tool `piecewise_linear_function_smoothing`

Models `src/tools/piecewise_linear_function_smoothing.cc` and the output operator of `include/aleph/math/PiecewiseLinearFunction.hh`.

Simplifications: numbers are real numbers.  Messages on standard error are not modelled.
-/

namespace Aleph.Smoothing

/-- What may happen instead of an ordinary end of the program. -/
inductive Failure
  | exception
  | undefined
  deriving DecidableEq

/-- `load`, `piecewise_linear_function_smoothing.cc:21-51`, for one line: `none` is the exception for a line without two numbers, `some none` is a line that is skipped.  `scan` reads two numbers from
the beginning of a line. -/
def loadLine {α : Type} (scan : List Char → Option (α × α)) (line : List Char) : Option (Option (α × α)) :=
  let line := Strings.trim line
  if line.isEmpty || line.head? == some '#' then some none else (scan line).map some

/-- `load`, `piecewise_linear_function_smoothing.cc:21-51`; the argument is `none` for a file that cannot be opened. -/
def load {α : Type} [LinearOrder α] [Field α] (scan : List Char → Option (α × α)) (file : Option (List Char)) : Option (Pl.Fn α) := do
  let text ← file
  let entries ← (Strings.getlines [] text).mapM (loadLine scan)
  Pl.construct (entries.filterMap id)

/-- `meanCalculation`, `piecewise_linear_function_smoothing.cc:53-59`. -/
def mean {α : Type} [LinearOrder α] [Field α] (functions : List (Pl.Fn α)) : Option (Pl.Fn α) := Pl.sdiv (functions.foldl Pl.add []) (functions.length : α)

/-- `operator<<`, `PiecewiseLinearFunction.hh:560-575`. -/
def write {α : Type} (print : α → List Char) (f : Pl.Fn α) : List Char := f.flatMap fun p => print p.1 ++ ['\t'] ++ print p.2 ++ ['\n']

noncomputable section

/-- Reading two numbers from a line, `std::stod` and `std::stoull` for options (`none` is an exception), the output of numbers, the smallest number, and the random numbers. -/
structure Context where
  scan : List Char → Option (ℝ × ℝ)
  stod : List Char → Option ℝ
  stoull : List Char → Option ℕ
  print : ℝ → List Char
  lowest : ℝ
  draw : ℕ → ℕ → ℕ

/-- The options, `piecewise_linear_function_smoothing.cc:67-72`; other options are skipped.  In particular, the string `"a:"` does not contain a short option for the number of samples; its argument is
considered to be the name of a file. -/
inductive Opt
  | alpha (word : List Char)
  | samples (word : List Char)
  | unknown

/-- The variables that are set by options, `piecewise_linear_function_smoothing.cc:63-64`. -/
structure Settings where
  alpha : ℝ
  numBootstrapSamples : ℕ

/-- The cases of the `switch`, `piecewise_linear_function_smoothing.cc:77-87`; the number of samples is converted to 32 bits. -/
def setOption (c : Context) (s : Settings) : Opt → Option Settings
  | .alpha word => (c.stod word).map fun a => { s with alpha := a }
  | .samples word => (c.stoull word).map fun n => { s with numBootstrapSamples := n % 4294967296 }
  | .unknown => some s

/-- The loop over all options, `piecewise_linear_function_smoothing.cc:63-89`. -/
def settings (c : Context) (opts : List Opt) : Option Settings := opts.foldlM (setOption c) ⟨1 / 20, 10⟩

/-- The distance between a replicate and the mean, `piecewise_linear_function_smoothing.cc:140-147`. -/
def deviation (lowest : ℝ) (n : ℕ) (empiricalMean meanReplicate : Pl.Fn ℝ) : ℝ := Pl.max lowest (Pl.abs (Pl.smul (Pl.sub meanReplicate empiricalMean) (√(n : ℝ))))

/-- The output, `piecewise_linear_function_smoothing.cc:153-159`. -/
def output (c : Context) (n : ℕ) (empiricalMean : Pl.Fn ℝ) (quantile : ℝ) : List Char :=
  let fLower := Pl.applyScalar (fun a b => a - b) empiricalMean (quantile / √(n : ℝ))
  let fUpper := Pl.applyScalar (fun a b => a + b) empiricalMean (quantile / √(n : ℝ))
  write c.print empiricalMean ++ "\n\n".toList ++ write c.print fUpper ++ "\n\n".toList ++ write c.print fLower ++ "\n".toList

/-- The mean, its replicates and the quantile, `piecewise_linear_function_smoothing.cc:105-159`.  (The function for division is declared with `noexcept`, but it cannot fail here.) -/
def process (c : Context) (s : Settings) (functions : List (Pl.Fn ℝ)) : Except Failure (List Char) :=
  match mean functions, (Bootstrap.makeReplicates c.draw s.numBootstrapSamples functions mean).bind fun l => l.mapM id with
  | some empiricalMean, some meanReplicates =>
    let theta := (meanReplicates.map (deviation c.lowest functions.length empiricalMean)).insertionSort (· ≤ ·)
    match Bootstrap.index s.numBootstrapSamples (1 - s.alpha) with
    | none => .error .undefined
    | some i =>
      match theta[i]? with
      | none => .error .exception
      | some quantile => .ok (output c functions.length empiricalMean quantile)
  | _, _ => .error .exception

/-- `main`, `piecewise_linear_function_smoothing.cc:61-160`: the result and the output. -/
def main (c : Context) (files : List Char → Option (List Char)) (opts : List Opt) (args : List (List Char)) : Except Failure (ℤ × List Char) :=
  match settings c opts with
  | none => .error .exception
  | some s =>
    if args.length ≤ 1 then .ok (-1, [])
    else
      match args.mapM fun path => load c.scan (files path) with
      | none => .error .exception
      | some functions =>
        match process c s functions with
        | .error e => .error e
        | .ok text => .ok (0, text)

end

end Aleph.Smoothing
