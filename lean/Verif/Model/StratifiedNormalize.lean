import Verif.Model.Complex
import Verif.Model.Statistics

/-!
# Normalisation of weights of graphs

Models `normalizeSimplicialComplex` of `src/tools/stratified_graph_analysis.cc`.  Weights are real numbers (simplification: no rounding).
-/

namespace Aleph.StratifiedNormalize

open Statistics

noncomputable section

/-- The argument `normalization`: the empty string, the three valid strategies, and all other strings. -/
inductive Mode
  | none
  | abs
  | minmax
  | standardize
  | unknown
deriving DecidableEq

/-- The violated assertion that there are different weights, values that are not numbers, and the exception for unknown strategies. -/
inductive Error
  | assertion
  | undefined
  | mode
deriving DecidableEq

/-- The weights of edges, `stratified_graph_analysis.cc:397-402`. -/
def weights (K : Complex ℝ) : List ℝ := (K.filter fun s => Complex.dim s == 1).map (·.data)

/-- `normalizeSimplicialComplex`, `stratified_graph_analysis.cc:389-436`; the replacement never fails as it does not change vertices. -/
def normalize (mode : Mode) (K : Complex ℝ) : Except Error (Complex ℝ) :=
  if mode = .none then .ok K
  else
    match weights K with
    | [] => .ok K
    | x :: l =>
      let lo := l.foldl min x
      let hi := l.foldl max x
      if lo = hi then .error .assertion
      else
        match mode with
        | .abs => .ok (K.map fun s => s.withData (s.data / max |lo| |hi|))
        | .minmax => .ok (K.map fun s =>
            let w := (s.data - lo) / (hi - lo)
            let w := 2 * w
            s.withData (w - 1))
        | .standardize =>
          match sampleMean (x :: l), sampleStandardDeviation (x :: l) with
          | some mu, some sigma => .ok (K.map fun s => s.withData ((s.data - mu) / sigma))
          | _, _ => .error .undefined
        | _ => .error .mode

end

end Aleph.StratifiedNormalize
