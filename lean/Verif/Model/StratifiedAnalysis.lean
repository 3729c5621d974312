import Verif.Model.Complex
import Mathlib.Algebra.Order.Group.Abs

/-!
# Filtrations and weights of stratified graphs

Models `applyFiltration` and `assignVertexWeights` of `src/tools/stratified_graph_analysis.cc`, and the part of `main` that establishes the order of filtrations.  Weights are elements of an ordered group.

Simplification: the weights of edges are different from the extreme values of the data type, which stand for missing values in the code.
-/

namespace Aleph.StratifiedAnalysis

/-- The strategies for weights of vertices, `stratified_graph_analysis.cc:355-360`. -/
inductive Strategy
  | global
  | local
  | unknown
deriving DecidableEq

/-- Exceptions: an unknown strategy, and `weight.at` for a vertex without an edge. -/
inductive Error
  | strategy
  | outOfRange
deriving DecidableEq

variable {α : Type} [AddCommGroup α] [LinearOrder α]

/-- The comparison for absolute weights, `stratified_graph_analysis.cc:232-259`. -/
def absLess (s t : Simplex α) : Bool :=
  if |s.data| < |t.data| then true
  else if |s.data| = |t.data| then
    if s.data < t.data then true
    else if Complex.dim s < Complex.dim t then true
    else s.lt t
  else false

/-- The comparison for absolute weights in reverse order, `stratified_graph_analysis.cc:199-226`. -/
def absGreater (s t : Simplex α) : Bool :=
  if |s.data| > |t.data| then true
  else if |s.data| = |t.data| then
    if s.data > t.data then true
    else if Complex.dim s < Complex.dim t then true
    else s.lt t
  else false

/-- `applyFiltration`, `stratified_graph_analysis.cc:174-266`; the argument `absolute` tells whether the strategy is `absolute` instead of `standard`.  The comparisons for absolute weights need not be orders; the result
is meaningless in this case. -/
def applyFiltration (absolute reverse : Bool) (K : Complex α) : Complex α :=
  if absolute then K.sort (if reverse then absGreater else absLess)
  else if reverse then K.sort (asLt (Filtration.data fun a b => decide (b < a)))
  else K.sort (asLt (Filtration.data fun a b => decide (a < b)))

/-- `min_abs`, `stratified_graph_analysis.cc:283-289`. -/
def minAbs (a b : α) : α := if |a| < |b| then a else b

/-- `max_abs`, `stratified_graph_analysis.cc:291-297`. -/
def maxAbs (a b : α) : α := if |a| > |b| then a else b

/-- One iteration of the loop for the extreme weights, `stratified_graph_analysis.cc:307-328`; `none` stands for the initial values. -/
def rangeStep (absolute : Bool) (range : Option (α × α)) (s : Simplex α) : Option (α × α) :=
  if Complex.dim s != 1 then range
  else
    match range with
    | none => some (s.data, s.data)
    | some (lo, hi) => if absolute then some (minAbs lo s.data, maxAbs hi s.data) else some (min lo s.data, max hi s.data)

omit [AddCommGroup α] [LinearOrder α] in
/-- `std::unordered_map::insert`: existing entries are not changed. -/
def insertNew (m : List (ℕ × α)) (v : ℕ) (w : α) : List (ℕ × α) := if (m.lookup v).isSome then m else (v, w) :: m

omit [AddCommGroup α] [LinearOrder α] in
/-- The loop that sets up the weights of vertices, `stratified_graph_analysis.cc:340-364`; the weight for an edge is given by a function. -/
def collect (weight : Simplex α → α) : List (ℕ × α) → Complex α → List (ℕ × α)
  | m, [] => m
  | m, s :: K =>
    match s.vertices with
    | [u, v] => collect weight (insertNew (insertNew m u (weight s)) v (weight s)) K
    | _ => collect weight m K

omit [AddCommGroup α] [LinearOrder α] in
/-- The loop that assigns the weights, `stratified_graph_analysis.cc:371-384`; the replacement never fails as it does not change vertices. -/
def assignLoop (m : List (ℕ × α)) : Complex α → Except Error (Complex α)
  | [] => .ok []
  | s :: K =>
    match s.vertices with
    | [v] =>
      match m.lookup v with
      | none => .error .outOfRange
      | some w =>
        match assignLoop m K with
        | .error e => .error e
        | .ok L => .ok (s.withData w :: L)
    | _ =>
      match assignLoop m K with
      | .error e => .error e
      | .ok L => .ok (s :: L)

/-- `assignVertexWeights`, `stratified_graph_analysis.cc:299-387`. -/
def assign (absolute : Bool) (strategy : Strategy) (reverse : Bool) (K : Complex α) : Except Error (Complex α) :=
  let range := K.foldl (rangeStep absolute) none
  match strategy with
  | .unknown => if K.any fun s => Complex.dim s == 1 then .error .strategy else assignLoop [] K
  | .local => assignLoop (collect (fun s => s.data) [] K) K
  | .global => assignLoop (collect (fun s => match range with | none => s.data | some (lo, hi) => if reverse then hi else lo) [] K) K

/-- The order of the filtration, `stratified_graph_analysis.cc:641-643`. -/
def prepare (absolute : Bool) (strategy : Strategy) (reverse : Bool) (K : Complex α) : Except Error (Complex α) :=
  match assign absolute strategy reverse (applyFiltration absolute reverse K) with
  | .error e => .error e
  | .ok L => .ok (applyFiltration absolute reverse L)

end Aleph.StratifiedAnalysis
