import Verif.Model.ImageAnalysis
import Verif.Model.PlyReader

/-!
# The example `ply`

Models `examples/ply.cc`.

Simplifications: values are exact and finite; `inf` is the infinite value of points that are never destroyed.  `number` is `std::stoul`, `real` tells whether `std::stod` succeeds,
`convert` is `utilities::convert`, and `print` is the output of numbers; `lo` and `hi` are the limits of the data type.  Messages and statistics, which are written to
standard error, are not modelled.
-/

namespace Aleph.PlyExample

open PlyReader (Failure)

variable {α : Type} [Zero α] [LinearOrder α]

/-- The parameters of the program. -/
structure Context (α : Type) where
  inf : α
  lo : α
  hi : α
  number : List Char → Option ℕ
  real : List Char → Bool
  convert : List Char → α
  print : α → List Char

/-- The property of the reader, `ply.cc:96-109, 136-137`; `rest` are the arguments behind the name of the file. -/
def property (rest : List (List Char)) : List Char :=
  let p := rest.headD []
  if p.isEmpty then PlyReader.defaultProperty else p

/-- The complex that is used, `ply.cc:139-160`. -/
def complexOf (c : Context α) (superlevel : Bool) (property : List Char) (text : Option (List Char)) : Except Failure (Complex α) :=
  match PlyReader.readFile c.lo c.hi c.number c.real c.convert property text with
  | .error e => .error e
  | .ok K =>
    if superlevel then .ok ((Complex.recalculateWeights c.lo c.hi false false K).sort (asLt (Filtration.data fun a b => decide (a < b))))
    else .ok K

/-- The diagrams, `ply.cc:167-168`, with the default algorithm and the default representation. -/
def diagrams (c : Context α) (superlevel : Bool) (property : List Char) (text : Option (List Char)) : Except Failure (List (Diagram α)) :=
  match complexOf c superlevel property text with
  | .error e => .error e
  | .ok K =>
    match calculatePersistenceDiagrams .twist .vector c.inf K with
    | none => .error .exception
    | some Ds => .ok Ds

/-- The output of a diagram, `ply.cc:172-183`. -/
def diagramBlock (c : Context α) (D : Diagram α) : List Char := FunctionAnalysis.diagramText c.print D.removeDiagonal ++ "\n\n".toList

/-- `main`, `ply.cc:69-206`: the result and the output.  The loop over options, `ply.cc:78-94`, is that of `image_analysis.cc`. -/
def main (c : Context α) (files : List Char → Option (List Char)) (opts : List ImageAnalysis.Opt) (names : List (List Char)) : Except Failure (ℤ × List Char) :=
  match names with
  | [] => .ok (-1, [])
  | filename :: rest =>
    match diagrams c (ImageAnalysis.settings opts) (property rest) (files filename) with
    | .error e => .error e
    | .ok Ds => .ok (0, Ds.flatMap (diagramBlock c))

end Aleph.PlyExample
