import Verif.Model.Filesystem
import Verif.Model.PersistenceIndicator
import Verif.Model.Strings
import Verif.Model.TextReaders

/-!
# The tool `persistence_indicator_function`, and step functions as texts

Models `src/tools/persistence_indicator_function.cc` and the operators for streams of `include/aleph/math/StepFunction.hh`.

Simplifications: arithmetic is exact; all files can be written; the argument `--` does not occur.  Messages on standard error, among them the sample variance, are not modelled.
-/

namespace Aleph.Step

variable {α : Type}

/-- `operator<<`, `StepFunction.hh:504-513`. -/
def write (print : α → List Char) (f : Fn α) : List Char :=
  f.flatMap fun e => print e.a ++ ['\t'] ++ print e.y ++ ['\n'] ++ print e.b ++ ['\t'] ++ print e.y ++ ['\n']

/-- The loop of `operator>>`, `StepFunction.hh:518-539`, over the remaining lines; `scan` reads two numbers from a line (`none` if this fails). -/
def readLines [LinearOrder α] (scan : List Char → Option (α × α)) : List (List Char) → Fn α → Option (Fn α)
  | [], f => some f
  | line :: lines, f =>
    match scan line with
    | none => readLines scan lines f
    | some (a, ya) =>
      match lines with
      | [] => some f
      | line :: lines =>
        match scan line with
        | none => readLines scan lines f
        | some (b, yb) => if ya = yb then (add f a b ya).bind fun g => readLines scan lines g else readLines scan lines f

/-- `operator>>`, `StepFunction.hh:515-542`. -/
def read [LinearOrder α] (scan : List Char → Option (α × α)) (f : Fn α) (text : List Char) : Option (Fn α) := readLines scan (Strings.getlines [] text) f

end Aleph.Step

namespace Aleph.IndicatorTool

variable {α : Type}

/-- The numbers: the value that marks unpaired points, successor and predecessor, and the conversions from and to words. -/
structure Context (α : Type) where
  inf : α
  next : α → α
  previous : α → α
  convert : List Char → α
  print : α → List Char

/-- What may happen instead of an ordinary end of the program. -/
inductive Failure
  | exception
  | undefined
  deriving DecidableEq

/-- The options, `persistence_indicator_function.cc:50-56`; any other option is skipped. -/
inductive Opt
  | mean
  | output (word : List Char)
  | prefix (word : List Char)
  | unknown

/-- The variables that are set by options, `persistence_indicator_function.cc:64-66`. -/
structure Settings where
  outputDirectory : List Char
  pre : List Char
  calculateMean : Bool

/-- The cases of the `switch`, `persistence_indicator_function.cc:72-85`. -/
def setOption (s : Settings) : Opt → Settings
  | .mean => { s with calculateMean := true }
  | .output word => { s with outputDirectory := word }
  | .prefix word => { s with pre := word }
  | .unknown => s

/-- The loop over all options, `persistence_indicator_function.cc:64-87`. -/
def settings (opts : List Opt) : Settings := opts.foldl setOption ⟨"/tmp".toList, "PIF_".toList, false⟩

/-- The directory for output, `persistence_indicator_function.cc:89-98`. -/
def directory (outputDirectory : List Char) : List Char :=
  let outputDirectory := if outputDirectory.isEmpty then "/tmp/".toList else outputDirectory
  if outputDirectory.getLast? ≠ some '/' then outputDirectory ++ ['/'] else outputDirectory

/-- The loop that loads the files, `persistence_indicator_function.cc:113-127`. -/
def loadAll [LinearOrder α] (c : Context α) (files : List Char → Option (List Char)) : List (List Char) → Except Failure (List (Diagram α))
  | [] => .ok []
  | filename :: filenames =>
    match TextReaders.loadDiagram c.convert (files filename) with
    | none => .error .exception
    | some D =>
      match loadAll c files filenames with
      | .error e => .error e
      | .ok Ds => .ok (D.removeUnpaired c.inf :: Ds)

/-- The loop over the diagrams, `persistence_indicator_function.cc:138-161`: the sum of all functions and the files that are written, in their order. -/
def process [LinearOrder α] [Ring α] (c : Context α) (pre : List Char) (calculateMean : Bool) : List (List Char) → List (Diagram α) → Step.Fn α → Except Failure (Step.Fn α × List (List Char × List Char))
  | filename :: filenames, D :: Ds, mean =>
    match Pif.pif c.next c.inf D.points with
    | none => .error .undefined
    | some f =>
      match if calculateMean then Step.sum c.next c.previous mean f else some mean with
      | none => .error .undefined
      | some mean =>
        match process c pre calculateMean filenames Ds mean with
        | .error e => .error e
        | .ok (mean, out) => .ok (mean, (pre ++ Filesystem.stem (Filesystem.basename filename) ++ ".txt".toList, Step.write c.print f ++ ['\n']) :: out)
  | _, _, mean => .ok (mean, [])

/-- `main`, `persistence_indicator_function.cc:48-200`: the result and the files that are written, in their order. -/
def main [LinearOrder α] [Field α] (c : Context α) (files : List Char → Option (List Char)) (opts : List Opt) (args : List (List Char)) : Except Failure (ℤ × List (List Char × List Char)) :=
  if opts.isEmpty && args.isEmpty then .ok (-1, [])
  else
    let s := settings opts
    let pre := directory s.outputDirectory ++ s.pre
    match loadAll c files args with
    | .error e => .error e
    | .ok Ds =>
      match process c pre s.calculateMean args Ds [] with
      | .error e => .error e
      | .ok (mean, out) =>
        if s.calculateMean then
          match Step.sdiv mean (Ds.length : α) with
          | none => .error .exception
          | some mean => .ok (0, out ++ [(pre ++ "mean.txt".toList, Step.write c.print mean ++ ['\n'])])
        else .ok (0, out)

end Aleph.IndicatorTool
