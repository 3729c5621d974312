import Verif.Model.Entropy
import Verif.Model.TextReaders

/-!
# The tool `persistence_diagram_entropies`

Models `src/tools/persistence_diagram_entropies.cc`.

Data are real numbers; simplification: arithmetic is exact, and diagrams with unpaired points are excluded.  `convert` is the conversion of words to
numbers; messages on standard error are not modelled.
-/

namespace Aleph.DiagramEntropies

noncomputable section

/-- What may happen instead of an ordinary end of the program. -/
inductive Failure
  | exception
  | undefined
  deriving DecidableEq

/-- The loop that loads the files, `persistence_diagram_entropies.cc:46-62`. -/
def loadAll (convert : List Char → ℝ) (files : List Char → Option (List Char)) (filenames : List (List Char)) : Except Failure (List (List Char × Diagram ℝ)) :=
  filenames.mapM fun filename =>
    match TextReaders.loadDiagram convert (files filename) with
    | none => .error .exception
    | some D => .ok (filename, D)

/-- The entropies of a diagram and a line of the output, `persistence_diagram_entropies.cc:66-70`; `print` is the output of numbers, where `none` is not a number. -/
def line (sort : (ℕ → ℕ → Bool) → List ℕ → List ℕ) (print : Option ℝ → List Char) (D : Diagram ℝ) : Except Failure (List Char) :=
  match Entropy.nearestNeighbourAreaEntropy sort D, Entropy.gridEntropy D 20 with
  | some nn, some rg => .ok (print nn ++ ['\t'] ++ print rg ++ ['\t'] ++ print (Entropy.persistentEntropy D) ++ ['\n'])
  | _, _ => .error .undefined

/-- `main`, `persistence_diagram_entropies.cc:35-72`: the result and the output. -/
def main (sort : (ℕ → ℕ → Bool) → List ℕ → List ℕ) (convert : List Char → ℝ) (print : Option ℝ → List Char) (files : List Char → Option (List Char))
    (filenames : List (List Char)) : Except Failure (ℤ × List Char) :=
  if filenames.isEmpty then .ok (-1, [])
  else
    match loadAll convert files filenames with
    | .error e => .error e
    | .ok inputs =>
      match inputs.mapM fun input => line sort print input.2 with
      | .error e => .error e
      | .ok ls => .ok (0, ls.flatten)

end

end Aleph.DiagramEntropies
