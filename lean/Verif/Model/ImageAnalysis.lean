import Verif.Model.Conversions
import Verif.Model.FunctionAnalysis
import Verif.Model.MatrixReader

/-!
# The example `image_analysis`

Models `examples/image_analysis.cc`.

Simplifications: values are exact and finite; `inf` is the infinite value of points that are never destroyed.  `number` tells which words are numbers (see `MatrixReader`), and
`print` is the output of numbers.  Output that precedes an exception is not modelled.
-/

namespace Aleph.ImageAnalysis

/-- The options, `image_analysis.cc:28-32`; any other option is skipped. -/
inductive Opt
  | sublevel
  | superlevel
  | unknown

/-- The cases of the `switch`, `image_analysis.cc:37-46`. -/
def setOption (b : Bool) : Opt → Bool
  | .sublevel => false
  | .superlevel => true
  | .unknown => b

/-- The loop over all options, `image_analysis.cc:26-48`. -/
def settings (opts : List Opt) : Bool := opts.foldl setOption false

variable {α : Type} [LinearOrder α]

/-- The complex in the order of its filtration, `image_analysis.cc:55-81`; `none` is an exception, also for a file that cannot be opened (`Matrix.hh:95-97`).  The reader adds
triangles unless told otherwise (`Matrix.hh:270`). -/
def complexOf (number : List Char → Option α) (superlevel : Bool) (text : Option (List Char)) : Option (Complex α) :=
  match text with
  | none => none
  | some text =>
    match MatrixReader.read true (if superlevel then min else max) number text with
    | none => none
    | some (_, _, K) =>
      some (if superlevel then K.sort (asLt (Filtration.data fun a b => decide (b < a)))
        else K.sort (asLt (Filtration.data fun a b => decide (a < b))))

/-- The diagrams, `image_analysis.cc:83`, with the default algorithm and the default representation. -/
def diagrams (inf : α) (number : List Char → Option α) (superlevel : Bool) (text : Option (List Char)) : Option (List (Diagram α)) :=
  match complexOf number superlevel text with
  | none => none
  | some K => calculatePersistenceDiagrams .twist .vector inf K

/-- The output of a diagram, `image_analysis.cc:87-89`. -/
def diagramBlock (print : α → List Char) (D : Diagram α) : List Char := FunctionAnalysis.diagramText print D.removeDiagonal ++ ['\n']

/-- `main`, `image_analysis.cc:22-91`: the result and the output; `none` is an exception. -/
def main (inf : α) (number : List Char → Option α) (print : α → List Char) (files : List Char → Option (List Char)) (opts : List Opt) (names : List (List Char)) :
    Option (ℤ × List Char) :=
  match names with
  | [] => some (-1, [])
  | filename :: _ =>
    match diagrams inf number (settings opts) (files filename) with
    | none => none
    | some Ds => some (0, Ds.flatMap (diagramBlock print))

end Aleph.ImageAnalysis
