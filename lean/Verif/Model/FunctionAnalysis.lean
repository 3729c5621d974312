import Verif.Model.DiagramNorms
import Verif.Model.Function
import Verif.Model.PointCloud

/-!
# The tool `function_analysis`

Models `src/tools/function_analysis.cc`.

Simplifications: arithmetic is exact, values of functions are neither infinite nor undefined; `inf` is the infinite value of points that are never
destroyed.  `convert` is the conversion of words to numbers, `none` if it fails.  Messages on standard error are not modelled, neither is the
output of a program that is ended by an exception (it is still in a buffer).
-/

namespace Aleph.FunctionAnalysis

/-- What may happen instead of an ordinary end of the program. -/
inductive Failure
  | exception
  | undefined
  deriving DecidableEq

/-- The options, `function_analysis.cc:172-180`; any other option is skipped, `function_analysis.cc:207-208`. -/
inductive Opt
  | condense
  | normalize
  | sublevels
  | superlevels
  | output (name : List Char)
  | unknown

/-- The variables that are set by options. -/
structure Settings where
  condense : Bool
  normalize : Bool
  sublevel : Bool
  output : List Char

/-- The cases of the `switch`, `function_analysis.cc:185-209`. -/
def setOption (s : Settings) : Opt → Settings
  | .condense => { s with condense := true }
  | .normalize => { s with normalize := true }
  | .output name => { s with output := name }
  | .sublevels => { s with sublevel := true }
  | .superlevels => { s with sublevel := false }
  | .unknown => s

/-- The initial values and the loop over all options, `function_analysis.cc:166-211`. -/
def settings (opts : List Opt) : Settings := opts.foldl setOption ⟨false, false, true, []⟩

variable {α : Type} [LinearOrder α]

/-- The complex of the values of a line, `function_analysis.cc:118-148`. -/
def complexOf (sublevel : Bool) (values : List α) : Option (Complex α) :=
  match FunctionIO.pathComplex (fun x y => if sublevel then max x y else min x y) values with
  | none => none
  | some K =>
    some (if sublevel then K.sort (asLt (Filtration.data fun a b => decide (a < b)))
      else K.sort (asLt (Filtration.data fun a b => decide (b < a))))

/-- The body of the loop over all lines, `function_analysis.cc:98-148`. -/
def readLine (convert : List Char → Option α) (sublevel : Bool) (line : List Char) : Except Failure (Complex α) :=
  match (Strings.split PointCloud.isSeparator line).mapM convert with
  | none => .error .exception
  | some values =>
    match complexOf sublevel values with
    | none => .error .exception
    | some K => .ok K

/-- `readData`, `function_analysis.cc:91-152`. -/
def readData (convert : List Char → Option α) (sublevel : Bool) (text : List Char) : Except Failure (List (Complex α)) :=
  (Strings.getlines [] text).mapM (readLine convert sublevel)

/-- The loop over all files, `function_analysis.cc:219-243`.  `stdin` is what has not yet been read from standard input; nothing is read from a
file that cannot be opened. -/
def readAll (convert : List Char → Option α) (sublevel : Bool) (files : List Char → Option (List Char)) :
    List Char → List (List Char) → Except Failure (List (Complex α))
  | _, [] => .ok []
  | stdin, name :: names =>
    let standard := name = ['-'] ∨ name = []
    match readData convert sublevel (if standard then stdin else (files name).getD []) with
    | .error e => .error e
    | .ok Ks =>
      match readAll convert sublevel files (if standard then [] else stdin) names with
      | .error e => .error e
      | .ok Ls => .ok (Ks ++ Ls)

/-- `minmaxData`, `function_analysis.cc:76-89`; `largest` and `lowest` are the limits of the data type. -/
def minmaxData (largest lowest : α) (K : Complex α) : α × α :=
  K.foldl (fun m s => (min m.1 s.data, max m.2 s.data)) (largest, lowest)

/-- The replacement of infinite values, `function_analysis.cc:276-296`. -/
def close (inf : α) (sublevel : Bool) (m : α × α) (p : α × α) : α × α :=
  if p.2 = inf then (p.1, if sublevel then m.2 else m.1) else p

/-- The diagram of a complex before values are scaled, `function_analysis.cc:264-296`, with the default algorithm and the default representation. -/
def rawDiagram (inf largest lowest : α) (sublevel : Bool) (K : Complex α) : Except Failure (Diagram α) :=
  match calculatePersistenceDiagrams .twist .vector inf K with
  | none => .error .exception
  | some [D] =>
    if D.betti inf ≠ 1 then .error .exception
    else .ok { D with points := D.points.map (close inf sublevel (minmaxData largest lowest K)) }
  | some _ => .error .exception

variable [Field α]

/-- Scaling of values, `function_analysis.cc:300-313`. -/
def scale (m : α × α) (D : Diagram α) : Diagram α :=
  if m.1 ≠ m.2 then
    { D with points := D.points.map fun p => ((p.1 - m.1) / (m.2 - m.1), (p.2 - m.1) / (m.2 - m.1)) }
  else D

/-- The diagram that is written, `function_analysis.cc:264-313`. -/
def diagramOf (inf largest lowest : α) (s : Settings) (K : Complex α) : Except Failure (Diagram α) :=
  match rawDiagram inf largest lowest s.sublevel K with
  | .error e => .error e
  | .ok D => .ok (if s.normalize then scale (minmaxData largest lowest K) D else D)

/-- `operator<<` for diagrams, `PersistenceDiagram.hh:248-254`; `print` is the output of numbers. -/
def diagramText (print : α → List Char) (D : Diagram α) : List Char :=
  D.points.flatMap fun p => print p.1 ++ ['\t'] ++ print p.2 ++ ['\n']

noncomputable section

/-- `condensePersistenceDiagram`, `function_analysis.cc:46-69`; the smallest and the largest value of an empty range are undefined. -/
def condense (D : Diagram ℝ) : Except Failure (List ℝ) :=
  match DiagramNorms.persistenceValues D false with
  | [] => .error .undefined
  | v :: vs =>
    match DiagramNorms.pNorm D 2 false with
    | none => .error .exception
    | some norm =>
      .ok [vs.foldl min v, vs.foldl max v, Kahan.accumulateSorted (v :: vs) 0 / (D.points.length : ℝ), norm]

/-- The output for a complex, `function_analysis.cc:315-329`. -/
def textOf (print : ℝ → List Char) (s : Settings) (D : Diagram ℝ) : Except Failure (List Char) :=
  if s.condense then
    match condense D with
    | .error e => .error e
    | .ok values => .ok (List.intercalate [' '] (values.map print) ++ ['\n'])
  else .ok (diagramText print D ++ ['\n', '\n'])

/-- The body of the loop over all complexes, `function_analysis.cc:262-330`. -/
def analyse (inf largest lowest : ℝ) (print : ℝ → List Char) (s : Settings) (K : Complex ℝ) : Except Failure (List Char) :=
  match diagramOf inf largest lowest s K with
  | .error e => .error e
  | .ok D => textOf print s D

/-- What is written: to standard output, and to a file with the given name. -/
structure Output where
  stdout : List Char
  file : Option (List Char × List Char)
  deriving DecidableEq

/-- `main`, `function_analysis.cc:158-333`: the result and the output.  `writable` tells which files can be opened for writing; without success, the
output is lost. -/
def main (inf largest lowest : ℝ) (convert : List Char → Option ℝ) (print : ℝ → List Char) (files : List Char → Option (List Char)) (writable : List Char → Bool)
    (stdin : List Char) (opts : List Opt) (names : List (List Char)) : Except Failure (ℤ × Output) :=
  let s := settings opts
  if names.isEmpty then .ok (-1, ⟨[], none⟩)
  else
    match readAll convert s.sublevel files stdin names with
    | .error e => .error e
    | .ok Ks =>
      match Ks.mapM (analyse inf largest lowest print s) with
      | .error e => .error e
      | .ok texts =>
        .ok (0, if s.output.isEmpty then ⟨texts.flatten, none⟩
          else ⟨[], if writable s.output then some (s.output, texts.flatten) else none⟩)

end

end Aleph.FunctionAnalysis
