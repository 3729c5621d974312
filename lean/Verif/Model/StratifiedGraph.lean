import Verif.Model.Complex

/-!
# Random stratified graphs

Models the graphs and filtrations of `src/tools/random_stratified_graphs.cc`, that is, all functions except `merge` and `main`.  Weights are elements of an ordered group; the random numbers are given by a sequence `draw`: the call number `t` of the distribution
yields `draw t`.

Simplification: the number of vertices does not exceed the range of `VertexType`.
-/

namespace Aleph.StratifiedGraph

variable {α : Type}

/-- The loop for the vertices, `random_stratified_graphs.cc:143-148`. -/
def vertexLoop [Zero α] : ℕ → List ℕ → List (Simplex α)
  | _, [] => []
  | index, stratum :: strata => (List.range stratum).map (fun i => Simplex.ofVertex (index + i) 0) ++ vertexLoop (index + stratum) strata

/-- The loop for the edges, `random_stratified_graphs.cc:155-178`; the arguments are the offset, the number of calls of the distribution so far, and the strata from the current one on. -/
def edgeLoop (draw : ℕ → α) : ℕ → ℕ → List ℕ → List (Simplex α)
  | _, _, [] => []
  | _, _, [_] => []
  | offset, t, a :: b :: strata =>
    let offset := offset + a
    ((List.range a).flatMap fun j => (List.range b).map fun k => Simplex.ofRange [offset - a + j, offset + k] (draw (t + (j * b + k)))) ++ edgeLoop draw offset (t + a * b) (b :: strata)

/-- `makeRandomStratifiedGraph`, `random_stratified_graphs.cc:125-181`; `none` is the exception. -/
def graph [Zero α] (draw : ℕ → α) (strata : List ℕ) : Option (Complex α) :=
  if strata.length ≤ 1 then none
  else some (Complex.insertRange [] (vertexLoop 0 strata ++ edgeLoop draw 0 0 strata)).1

variable [LinearOrder α] [Zero α]

/-- The first call of `std::transform`, `random_stratified_graphs.cc:34-48`. -/
def keep (upper : Bool) (s : Simplex α) : Simplex α :=
  if (upper = true ∧ s.data > 0) ∨ (upper = false ∧ s.data < 0) then s else Simplex.ofRange s.vertices 0

/-- The second call of `std::transform`, `random_stratified_graphs.cc:56-64`. -/
def reset (s : Simplex α) : Simplex α :=
  match s.vertices with
  | [v] => Simplex.ofVertex v 0
  | _ => s

/-- `makeFiltration`, `random_stratified_graphs.cc:27-78`. -/
def makeFiltration (K : Complex α) (upper : Bool) : Complex α :=
  let simplices := K.map (keep upper)
  let simplices := simplices.map reset
  let simplices := simplices.filter fun s => !(Complex.dim s != 0 && s.data == 0)
  (Complex.insertRange [] simplices).1

/-- `makeLowerFiltration`, `random_stratified_graphs.cc:81-89`. -/
def makeLowerFiltration (K : Complex α) : Complex α :=
  (makeFiltration K false).sort (asLt (Filtration.data fun a b => decide (a > b)))

/-- `makeUpperFiltration`, `random_stratified_graphs.cc:92-100`: the sorted complex is not used. -/
def makeUpperFiltration (K : Complex α) : Complex α := makeFiltration K true

end Aleph.StratifiedGraph
