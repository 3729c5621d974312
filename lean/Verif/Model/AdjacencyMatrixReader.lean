import Verif.Model.MatrixReader

/-!
# Adjacency matrices in text format

Models `include/aleph/topology/io/AdjacencyMatrix.hh`.  Weights are elements of a linear order, so that the option to ignore NaNs
has no effect and is omitted.  Numbers are read like in `Verif.Model.MatrixReader`.
-/

namespace Aleph.AdjacencyMatrixReader

variable {α : Type}

/-- `VertexWeightAssignmentStrategy`, `AdjacencyMatrix.hh:58-63`. -/
inductive Strategy
  | globalMaximum
  | globalMinimum
  | zero
  deriving DecidableEq

/-- Lines that are counted, `AdjacencyMatrix.hh:133-140`: neither empty nor a comment. -/
def isCounted : List Char → Bool
  | [] => false
  | c :: _ => c != '#'

/-- `std::minmax_element`, `AdjacencyMatrix.hh:168-175`: minimum and maximum of a range with first element `a`. -/
def minmax [LinearOrder α] (a : α) (l : List α) : α × α := l.foldl (fun m b => (min m.1 b, max m.2 b)) (a, a)

/-- The loop for the edges in row `y`, `AdjacencyMatrix.hh:188-207`; `f` is the functor applied to the minimum and maximum
already.  There is no access out of bounds as the number of values has been checked (`none` does not occur). -/
def rowEdges [DecidableEq α] [Zero α] (ignoreZero : Bool) (f : α → α) (n : ℕ) (values : List α) (y : ℕ) :
    List (Simplex α) :=
  (List.range' (y + 1) (n - (y + 1))).filterMap fun x =>
    match values[n * y + x]? with
    | none => none
    | some w => if ignoreZero && decide (w = 0) then none else some (Simplex.ofRange [y, x] (f w))

/-- The weight of the vertices, `AdjacencyMatrix.hh:217-236`. -/
def vertexWeight [Zero α] (strategy : Strategy) (f : α → α → α → α) (lo hi : α) : α :=
  match strategy with
  | .globalMaximum => f hi lo hi
  | .globalMinimum => f hi lo lo
  | .zero => 0

/-- Construction of the complex, `AdjacencyMatrix.hh:161-250`, for `n * n` values, the first of which is `a`. -/
def build [LinearOrder α] [Zero α] (ignoreZero : Bool) (strategy : Strategy) (f : α → α → α → α) (n : ℕ) (a : α)
    (values : List α) : Complex α :=
  let lo := (minmax a values).1
  let hi := (minmax a values).2
  let edges := (List.range n).flatMap (rowEdges ignoreZero (f hi lo) n values)
  let vertices := (List.range n).map fun i => Simplex.ofVertex i (vertexWeight strategy f lo hi)
  Complex.sort (Complex.insertRange [] (edges ++ vertices)).1 (asLt (Filtration.data fun a b => decide (a < b)))

/-- `operator()(in, K, f)`, `AdjacencyMatrix.hh:115-251`: the dimension and the complex afterwards; `none` is the
exception. -/
def read [LinearOrder α] [Zero α] (ignoreZero : Bool) (strategy : Strategy) (f : α → α → α → α)
    (number : List Char → Option α) (text : List Char) (dimension : ℕ) (K : Complex α) : Option (ℕ × Complex α) :=
  let n := ((Strings.getlines [] text).filter isCounted).length
  match MatrixReader.readValues number text with
  | [] => some (dimension, K)
  | a :: l => if (a :: l).length ≠ n * n then none else some (n, build ignoreZero strategy f n a (a :: l))

end Aleph.AdjacencyMatrixReader
