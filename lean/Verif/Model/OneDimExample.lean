import Verif.Model.Function
import Verif.Model.FunctionAnalysis

/-!
# The example `1D`

Models `examples/1D.cc`.  The diagram is written to standard error, so that this is the output here.
-/

namespace Aleph.OneDimExample

variable {α : Type}

/-- `main`, `1D.cc:18-41`: the result and the text on standard error; `none` is an exception.  `parse` are the numbers that are read from a text (`Function.hh:43-45`), `print` is the output of numbers.
The algorithm and the representation are those of `1D.cc:15` and `Defaults.hh:15-16`. -/
def main [LinearOrder α] (parse : List Char → List α) (print : α → List Char) (files : List Char → Option (List Char)) : List (List Char) → Option (ℤ × List Char)
  | [] => some (-1, [])
  | filename :: _ =>
    match files filename with
    | none => none
    | some text =>
      match FunctionIO.loadFunction .vector Rep.empty (parse text) with
      | none => none
      | some (r, values) =>
        match calculatePersistenceDiagram .twist .vector ⟨r, false⟩ values with
        | none => none
        | some D => some (0, FunctionAnalysis.diagramText print D ++ ['\n'])

end Aleph.OneDimExample
