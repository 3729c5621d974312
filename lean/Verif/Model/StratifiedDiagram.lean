import Verif.Model.StratifiedAnalysis
import Verif.Model.Conversions
import Mathlib.Algebra.Order.Field.Basic

/-!
# Diagrams of stratified graphs

Models the computation of persistence diagrams in `main` of `src/tools/stratified_graph_analysis.cc` for the standard filtration.  Weights are elements of an ordered field (simplification: no rounding); `inf`, `huge` and
`lowest` are the extreme values of the data type.
-/

namespace Aleph.StratifiedAnalysis

variable {α : Type} [Field α] [LinearOrder α]

/-- `getMinimumAbsoluteWeight`, `stratified_graph_analysis.cc:268-281`. -/
def minAbsoluteWeight (huge : α) (K : Complex α) : α :=
  K.foldl (fun result s => if Complex.dim s == 1 then min result |s.data| else result) huge

/-- The function that replaces unpaired points, `stratified_graph_analysis.cc:666-674`. -/
def close (inf m : α) (p : α × α) : α × α := if Diagram.isUnpaired inf p then (p.1, m) else p

/-- The range of all weights, `stratified_graph_analysis.cc:691-698`. -/
def dataRange (huge lowest : α) (K : Complex α) : α × α := K.foldl (fun r s => (min r.1 s.data, max r.2 s.data)) (huge, lowest)

/-- The function that normalises points, `stratified_graph_analysis.cc:703-717`. -/
def rescalePoint (r : α × α) (p : α × α) : α × α :=
  if r.1 ≠ r.2 then ((p.1 - r.1) / (r.2 - r.1), (p.2 - r.1) / (r.2 - r.1)) else p

/-- The diagram of a complex, `stratified_graph_analysis.cc:659-718`, for the standard filtration; `none` if there is no diagram, which is undefined behaviour.  The argument `scale` tells whether the diagram shall be
normalised. -/
def diagramOf (inf huge lowest : α) (scale : Bool) (K : Complex α) : Option (Diagram α) := do
  let Ds ← calculatePersistenceDiagrams .twist .vector inf K
  let D ← Ds.getLast?
  let D := D.removeDiagonal
  let D := { D with points := D.points.map (close inf (minAbsoluteWeight huge K)) }
  if scale then some { D with points := D.points.map (rescalePoint (dataRange huge lowest K)) } else some D

end Aleph.StratifiedAnalysis
