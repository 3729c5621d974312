import Verif.Model.MatrixReader
import Mathlib.Algebra.Order.Group.Abs

/-!
# Bipartite adjacency matrices in text format

Models `include/aleph/topology/io/BipartiteAdjacencyMatrix.hh`.  Weights are elements of an ordered group.  Numbers are read like in `Verif.Model.MatrixReader`.
-/

namespace Aleph.BipartiteReader

variable {α : Type}

/-- `std::unordered_map<VertexType, DataType>`, as a function. -/
abbrev Weights (α : Type) := ℕ → Option α

/-- `updateOrSetWeight`, `BipartiteAdjacencyMatrix.hh:126-141`. -/
def update [AddGroup α] [LinearOrder α] (absolute : Bool) (m : Weights α) (v : ℕ) (w : α) : Weights α :=
  match m v with
  | none => Function.update m v (some w)
  | some w' =>
    if absolute then (if |w| < |w'| then Function.update m v (some w) else m)
    else Function.update m v (some (min w' w))

/-- The weights of the vertices after the loops for edges, `BipartiteAdjacencyMatrix.hh:124-160`.  There is no access out of bounds, as the number of values has been checked (`none` does not
occur). -/
def minWeight [AddGroup α] [LinearOrder α] (absolute : Bool) (h w : ℕ) (values : List α) : Weights α :=
  (MatrixReader.positions h w).foldl (fun m (y, x) =>
    match values[w * y + x]? with
    | none => m
    | some a => update absolute (update absolute m y a) (x + h) a) fun _ => none

/-- The edges, `BipartiteAdjacencyMatrix.hh:143-160`. -/
def edges (h w : ℕ) (values : List α) : List (Simplex α) :=
  (MatrixReader.positions h w).filterMap fun (y, x) =>
    match values[w * y + x]? with
    | none => none
    | some a => some (Simplex.ofRange [y, x + h] a)

/-- `*std::min_element`, `BipartiteAdjacencyMatrix.hh:109`. -/
def minimum [LinearOrder α] (a : α) (l : List α) : α := l.foldl min a

/-- Construction of the complex, `BipartiteAdjacencyMatrix.hh:109-188`, for values the first of which is `a`. -/
def build [AddGroup α] [LinearOrder α] (assignMinimum assignAbsolute : Bool) (h w : ℕ) (a : α) (values : List α) : Complex α :=
  let minData := minimum a values
  let m := minWeight assignAbsolute h w values
  let vertices := (List.range (h + w)).map fun i => Simplex.ofVertex i (if assignMinimum || assignAbsolute then (m i).getD 0 else minData)
  Complex.sort (Complex.insertRange [] (edges h w values ++ vertices)).1 (asLt (Filtration.data fun a b => decide (a < b)))

/-- `operator()( in, K )`, `BipartiteAdjacencyMatrix.hh:69-189`: height, width and the complex afterwards; `none` is the exception. -/
def read [AddGroup α] [LinearOrder α] (assignMinimum assignAbsolute : Bool) (number : List Char → Option α) (text : List Char) (height width : ℕ) (K : Complex α) :
    Option (ℕ × ℕ × Complex α) :=
  let h := (Strings.getlines [] text).length
  match MatrixReader.readValues number text with
  | [] => some (height, width, K)
  | a :: l =>
    if (a :: l).length % h ≠ 0 then none
    else
      let w := (a :: l).length / h
      some (h, w, build assignMinimum assignAbsolute h w a (a :: l))

/-- `operator()( filename, K )`, `BipartiteAdjacencyMatrix.hh:59-66`; `none` as argument is a file that cannot be opened. -/
def readFile [AddGroup α] [LinearOrder α] (assignMinimum assignAbsolute : Bool) (number : List Char → Option α) (file : Option (List Char)) (height width : ℕ) (K : Complex α) :
    Option (ℕ × ℕ × Complex α) :=
  match file with
  | none => none
  | some text => read assignMinimum assignAbsolute number text height width K

end Aleph.BipartiteReader
