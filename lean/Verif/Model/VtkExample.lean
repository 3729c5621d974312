import Verif.Model.ImageAnalysis
import Verif.Model.VtkReader

/-!
# The example `vtk`

Models `examples/vtk.cc`.

Simplifications: values are exact and finite; `inf` is the infinite value of points that are never destroyed.  `number` is `std::stoul`, `convert` is `utilities::convert`, and
`print` is the output of numbers.  Output that precedes an exception is not modelled.
-/

namespace Aleph.VtkExample

variable {α : Type} [LinearOrder α]

/-- The diagrams, `vtk.cc:110-133`, with the default algorithm and the default representation; `none` is an exception. -/
def diagrams (inf : α) (number : List Char → Option ℕ) (convert : List Char → α) (superlevel : Bool) (text : Option (List Char)) : Option (List (Diagram α)) :=
  match VtkReader.readFile number convert (if superlevel then min else max) {} [] text with
  | .error _ => none
  | .ok (_, K) =>
    calculatePersistenceDiagrams .twist .vector inf
      (if superlevel then K.sort (asLt (Filtration.data fun a b => decide (b < a))) else K.sort (asLt (Filtration.data fun a b => decide (a < b))))

/-- The output of a diagram, `vtk.cc:137-144`. -/
def diagramBlock (print : α → List Char) (D : Diagram α) : List Char := FunctionAnalysis.diagramText print D.removeDiagonal ++ ['\n']

/-- `main`, `vtk.cc:55-145`: the result and the output; `none` is an exception.  The loop over options, `vtk.cc:64-80`, is that of `image_analysis.cc`. -/
def main (inf : α) (number : List Char → Option ℕ) (convert : List Char → α) (print : α → List Char) (files : List Char → Option (List Char)) (opts : List ImageAnalysis.Opt)
    (names : List (List Char)) : Option (ℤ × List Char) :=
  match names with
  | [] => some (-1, [])
  | filename :: _ =>
    match diagrams inf number convert (ImageAnalysis.settings opts) (files filename) with
    | none => none
    | some Ds => some (0, Ds.flatMap (diagramBlock print))

end Aleph.VtkExample
