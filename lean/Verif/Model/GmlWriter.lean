import Verif.Model.Complex
import Verif.Model.Utilities

/-!
# Output of graphs in GML format

Models `GMLWriter` of `include/aleph/topology/io/GML.hh`.  `represent` is the output operator for data; `none` as a result is an exception.
-/

namespace Aleph.GmlWriter

variable {α : Type}

/-- Options, `GML.hh:568-585`: labels of nodes, and whether data of vertices is written. -/
structure Options where
  nodeLabels : List (List Char) := []
  simplexData : Bool := false

/-- `setNodeLabels`, `GML.hh:558-561`. -/
def setNodeLabels (o : Options) (labels : List (List Char)) : Options := { o with nodeLabels := labels }

/-- `writeSimplexDataForVertices`, `GML.hh:563-566`. -/
def writeSimplexDataForVertices (o : Options) (value : Bool) : Options := { o with simplexData := value }

/-- The line with the label of a node, `GML.hh:530-531`.  The offset is one; the subtraction wraps around for zero, so that `at` throws. -/
def labelLine (o : Options) (id : ℕ) : Option (List Char) :=
  if o.nodeLabels.isEmpty then some []
  else if id < 1 then none
  else o.nodeLabels[id - 1]?.map fun l => "    label \"".toList ++ l ++ "\"\n".toList

/-- A vertex, `GML.hh:523-537`. -/
def node (o : Options) (represent : α → List Char) (id : ℕ) (data : α) : Option (List Char) :=
  (labelLine o id).map fun label =>
    "  node [\n    id ".toList ++ Utilities.decimal id ++ "\n".toList ++ label ++
      (if o.simplexData then "    data ".toList ++ represent data ++ "\n".toList else []) ++ "  ]\n".toList

/-- An edge, `GML.hh:538-548`. -/
def edge (represent : α → List Char) (u v : ℕ) (data : α) : List Char :=
  "  edge [\n    source ".toList ++ Utilities.decimal u ++ "\n    target ".toList ++ Utilities.decimal v ++ "\n    weight ".toList ++ represent data ++ "\n  ]\n".toList

/-- The body of the loop, `GML.hh:521-549`: what is added to both streams.  `dimension()` throws for empty simplices, `Simplex.hh:258-264`. -/
def simplex (o : Options) (represent : α → List Char) (s : Simplex α) : Option (List Char × List Char) :=
  match s.vertices with
  | [] => none
  | [u] => (node o represent u s.data).map fun t => (t, [])
  | [u, v] => some ([], edge represent u v s.data)
  | _ => some ([], [])

/-- `operator()( out, K )`, `GML.hh:516-556`. -/
def write (o : Options) (represent : α → List Char) (K : Complex α) : Option (List Char) :=
  (K.mapM (simplex o represent)).map fun ps =>
    "graph [\n  directed 0\n".toList ++ (ps.map Prod.fst).flatten ++ "\n".toList ++ (ps.map Prod.snd).flatten ++ "\n]\n".toList

end Aleph.GmlWriter
