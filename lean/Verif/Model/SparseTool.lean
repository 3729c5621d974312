import Verif.Model.Conversions
import Verif.Model.Curvature
import Verif.Model.FloydWarshall
import Verif.Model.GmlWriter
import Verif.Model.Kahan
import Verif.Model.Rips
import Verif.Model.SparseReader
import Mathlib.Algebra.Field.Defs

/-!
# The tool `sparse_adjacency_matrices`

Models `src/tools/sparse_adjacency_matrices.cc`.

Simplifications: arithmetic is exact.  Messages on standard error are not modelled, and all output files can be opened.
-/

namespace Aleph.SparseTool

open SparseReader (Failure Labels)

variable {α : Type}

/-- The infinite, largest and lowest values of the data type, conversions of strings to vertices, numbers of graphs and attributes by the reader, `utilities::convert` and `std::stoul` for options
(`none` is an exception), the output of numbers, and the traversal of unordered sets by the reader. -/
structure Context (α : Type) where
  inf : α
  hi : α
  lo : α
  vertex : List Char → ℕ
  graph : List Char → Option ℕ
  value : List Char → α
  convert : List Char → α
  stoul : List Char → Option ℕ
  print : α → List Char
  order : List ℕ → List ℕ

/-- The options, `sparse_adjacency_matrices.cc:98-111`. -/
inductive Opt
  | dimension (word : List Char)
  | infinity (word : List Char)
  | output (word : List Char)
  | attributes
  | closeness
  | graphs
  | sum
  | superlevel
  | nodeLabels
  | normalise
  | unknown
  deriving DecidableEq

/-- The variables that are set by options, `sparse_adjacency_matrices.cc:113-122`. -/
structure Settings (α : Type) where
  dimension : ℕ
  closeness : Bool
  graphs : Bool
  sum : Bool
  attributes : Bool
  nodeLabels : Bool
  superlevel : Bool
  normalise : Bool
  infinity : α
  output : List Char

/-- The cases of the `switch`, `sparse_adjacency_matrices.cc:128-162`; `none` is an exception. -/
def setOption (c : Context α) (s : Settings α) : Opt → Option (Settings α)
  | .dimension w => (c.stoul w).map fun n => { s with dimension := n }
  | .infinity w => some { s with infinity := c.convert w }
  | .output w => some { s with output := w }
  | .closeness => some { s with closeness := true }
  | .attributes => some { s with attributes := true }
  | .graphs => some { s with graphs := true }
  | .nodeLabels => some { s with nodeLabels := true }
  | .normalise => some { s with normalise := true }
  | .sum => some { s with sum := true }
  | .superlevel => some { s with superlevel := true }
  | .unknown => none

/-- The initial values, `sparse_adjacency_matrices.cc:113-122`. -/
def initial [Field α] : Settings α := ⟨0, false, false, false, false, false, false, false, 2, "/tmp".toList⟩

/-- The loop over all options, `sparse_adjacency_matrices.cc:124-164`. -/
def settings [Field α] (c : Context α) (opts : List Opt) : Option (Settings α) := opts.foldlM (setOption c) initial

/-- The directory with a slash at its end, `sparse_adjacency_matrices.cc:172-174`; `back` is not defined for an empty string. -/
def withSlash (directory : List Char) : Except Failure (List Char) :=
  match directory.getLast? with
  | none => .error .undefined
  | some last => if last ≠ '/' then .ok (directory ++ ['/']) else .ok directory

/-- The options of the reader, `sparse_adjacency_matrices.cc:181-191`. -/
def readerOptions (s : Settings α) : SparseReader.Options :=
  { readGraphLabels := true, readNodeLabels := s.nodeLabels, readNodeAttributes := s.attributes, nodeAttributeIndex := if s.attributes then some 0 else none }

/-- The sum over a row of the matrix, `sparse_adjacency_matrices.cc:59-63`: infinite entries are skipped. -/
def rowSum [Zero α] [Add α] [Sub α] (M : SymMatrix (WithTop α)) (n i : ℕ) : Option α :=
  ((List.range n).foldlM (fun k j =>
    match M.get i j with
    | none => none
    | some none => some k
    | some (some x) => some (Kahan.add k x)) (Kahan.init (0 : α))).map Kahan.sum

/-- `closenessCentrality`, `sparse_adjacency_matrices.cc:49-69`; the value `none` is the result of a division of a positive number by zero. -/
def closenessCentrality [LinearOrder α] [Field α] (K : Complex α) : Option (List (Option α)) :=
  match FloydWarshall.run K 1 with
  | none => none
  | some M => (List.range M.numRows).mapM fun i => (rowSum M M.numRows i).map fun sum => if sum = 0 then none else some ((M.numRows : α) / sum)

/-- The output of a value, `sparse_adjacency_matrices.cc:229`. -/
def valueLine (c : Context α) : Option α → List Char
  | none => "inf\n".toList
  | some x => c.print x ++ "\n".toList

/-- The name of a file for the graph with an index, `sparse_adjacency_matrices.cc:221-223, 340-342, 372-376, 385-389`. -/
noncomputable def name (directory : List Char) (index count : ℕ) (ending : List Char) : Except Failure (List Char) :=
  match Utilities.format index count '0' with
  | none => .error .undefined
  | some number => .ok (directory ++ number ++ ending)

/-- The loop that calculates centralities, `sparse_adjacency_matrices.cc:213-233`, starting with an index: the complexes, which are sorted lexicographically, and the files. -/
noncomputable def centralities [LinearOrder α] [Field α] (c : Context α) (directory : List Char) (count : ℕ) : ℕ → List (Complex α) → Except Failure (List (Complex α) × List (List Char × List Char))
  | _, [] => .ok ([], [])
  | index, K :: Ks => do
    let K := K.sortLex
    match closenessCentrality K with
    | none => .error .exception
    | some values =>
      let file ← name directory index count "_closeness_centrality.txt".toList
      let rest ← centralities c directory count (index + 1) Ks
      .ok (K :: rest.1, (file, values.flatMap (valueLine c)) :: rest.2)

/-- The optional calculation of centralities, `sparse_adjacency_matrices.cc:213-233`. -/
noncomputable def centralitiesIf [LinearOrder α] [Field α] (c : Context α) (s : Settings α) (directory : List Char) (Ks : List (Complex α)) :
    Except Failure (List (Complex α) × List (List Char × List Char)) :=
  if s.closeness then centralities c directory Ks.length 0 Ks else .ok (Ks, [])

/-- The loop that expands all complexes, `sparse_adjacency_matrices.cc:239-247`: its results are not used. -/
def expandAll [LinearOrder α] [Zero α] (o : Orders α) (dimension : ℕ) (Ks : List (Complex α)) : Except Failure Unit :=
  if dimension ≠ 0 then
    Ks.forM fun K =>
      match Rips.expand o 0 K dimension with
      | none => .error .exception
      | some _ => .ok ()
  else .ok ()

/-- The largest dimension, `sparse_adjacency_matrices.cc:249-254`; the dimension of an empty complex is an exception. -/
def maxDimension (Ks : List (Complex α)) : Except Failure ℕ :=
  Ks.foldlM (fun m K =>
    match K.dimension with
    | none => .error .exception
    | some d => .ok (max d m)) 0

/-- The largest degree, `sparse_adjacency_matrices.cc:269-274`. -/
def updateMaximum [LinearOrder α] (maxDegree : α) : List α → α
  | [] => maxDegree
  | d :: ds => max maxDegree (ds.foldl max d)

/-- The weights of simplices, `sparse_adjacency_matrices.cc:290-311`; `none` is a read past the end of the degrees. -/
def assign [LinearOrder α] [Field α] (c : Context α) (s : Settings α) (K : Complex α) (degrees : List α) : Option (Complex α) :=
  if s.sum then Rips.assignData K degrees 0 fun a b => a + b
  else if s.superlevel then Rips.assignData K degrees c.hi min
  else Rips.assignMaximumData c.lo K degrees

/-- The body of the loop over all complexes, `sparse_adjacency_matrices.cc:262-323`: the largest degree, and the complex.  Both orders are those of ascending weights. -/
def filtrationStep [LinearOrder α] [Field α] (c : Context α) (s : Settings α) (maxDegree : α) (K : Complex α) : Except Failure (α × Complex α) :=
  let degrees : List α := (Curvature.degrees K).map fun d : ℕ => (d : α)
  let maxDegree := updateMaximum maxDegree degrees
  let degrees := if s.normalise then degrees.map fun d => d / maxDegree else degrees
  let maxDegree := if s.normalise then 1 else maxDegree
  match assign c s K degrees with
  | none => .error .undefined
  | some K => .ok (maxDegree, K.sort (asLt (Filtration.data fun a b => decide (a < b))))

/-- The loop over all complexes, `sparse_adjacency_matrices.cc:258-323`. -/
def filtrations [LinearOrder α] [Field α] (c : Context α) (s : Settings α) : α → List (Complex α) → Except Failure (α × List (Complex α))
  | maxDegree, [] => .ok (maxDegree, [])
  | maxDegree, K :: Ks => do
    let step ← filtrationStep c s maxDegree K
    let rest ← filtrations c s step.1 Ks
    .ok (rest.1, step.2 :: rest.2)

/-- The loop that stores graphs, `sparse_adjacency_matrices.cc:338-349`, starting with an index. -/
noncomputable def graphFiles (c : Context α) (w : GmlWriter.Options) (directory : List Char) (count : ℕ) : ℕ → List (Complex α) → Except Failure (List (List Char × List Char))
  | _, [] => .ok []
  | index, K :: Ks => do
    let file ← name directory index count ".gml".toList
    match GmlWriter.write w c.print K with
    | none => .error .exception
    | some text =>
      let rest ← graphFiles c w directory count (index + 1) Ks
      .ok ((file, text) :: rest)

/-- The optional output of graphs, `sparse_adjacency_matrices.cc:330-350`. -/
noncomputable def graphFilesIf (c : Context α) (s : Settings α) (labels : Labels) (directory : List Char) (Ks : List (Complex α)) : Except Failure (List (List Char × List Char)) :=
  if s.graphs then graphFiles c { nodeLabels := if s.nodeLabels then labels.node else [], simplexData := s.attributes } directory Ks.length 0 Ks else .ok []

/-- The ending of the name of a file with a diagram, `sparse_adjacency_matrices.cc:374-376, 387-389`. -/
def ending (d : ℕ) : List Char := "_d".toList ++ Utilities.decimal d ++ ".txt".toList

/-- The lines of a file with a diagram, `sparse_adjacency_matrices.cc:393-399`. -/
def content [LinearOrder α] [Mul α] (c : Context α) (infinity maxDegree : α) (D : Diagram α) : List Char :=
  D.points.flatMap fun p =>
    if Diagram.isUnpaired c.inf p then c.print p.1 ++ "\t".toList ++ c.print (infinity * maxDegree) ++ "\n".toList
    else c.print p.1 ++ "\t".toList ++ c.print p.2 ++ "\n".toList

/-- The files for a complex, `sparse_adjacency_matrices.cc:359-400`. -/
noncomputable def diagramFiles [LinearOrder α] [Mul α] (c : Context α) (infinity maxDegree : α) (maxDimension : ℕ) (directory : List Char) (count index : ℕ) (K : Complex α) :
    Except Failure (List (List Char × List Char)) := do
  match calculatePersistenceDiagrams .twist .vector c.inf K true true with
  | none => .error .exception
  | some Ds =>
    let empty ← (List.range (maxDimension + 1)).mapM fun d => (name directory index count (ending d)).map fun file => (file, [])
    let full ← Ds.mapM fun D => (name directory index count (ending D.dimension)).map fun file => (file, content c infinity maxDegree D.removeDiagonal)
    .ok (empty ++ full)

/-- The loop over all complexes, `sparse_adjacency_matrices.cc:354-404`, starting with an index. -/
noncomputable def allDiagramFiles [LinearOrder α] [Mul α] (c : Context α) (infinity maxDegree : α) (maxDimension : ℕ) (directory : List Char) (count : ℕ) :
    ℕ → List (Complex α) → Except Failure (List (List Char × List Char))
  | _, [] => .ok []
  | index, K :: Ks => do
    let fs ← diagramFiles c infinity maxDegree maxDimension directory count index K
    let rest ← allDiagramFiles c infinity maxDegree maxDimension directory count (index + 1) Ks
    .ok (fs ++ rest)

/-- The file of labels, `sparse_adjacency_matrices.cc:408-420`. -/
def labelFile (directory : List Char) (labels : List (List Char)) : List Char × List Char := (directory ++ "Labels.txt".toList, labels.flatMap fun l => l ++ "\n".toList)

/-- `main` after its options have been read, `sparse_adjacency_matrices.cc:172-420`: the files, in the order in which they are written. -/
noncomputable def run [LinearOrder α] [Field α] (c : Context α) (o : Orders α) (files : List Char → Option (List Char)) (s : Settings α) (filename : List Char) :
    Except Failure (List (List Char × List Char)) := do
  let directory ← withSlash s.output
  let (Ks, labels) ← SparseReader.read (readerOptions s) c.order c.vertex c.graph c.value files filename ⟨[], []⟩
  let (Ks, centralityFiles) ← centralitiesIf c s directory Ks
  expandAll o s.dimension Ks
  let m ← maxDimension Ks
  let (maxDegree, Ks) ← filtrations c s 0 Ks
  let graphs ← graphFilesIf c s labels directory Ks
  let diagrams ← allDiagramFiles c s.infinity maxDegree m directory Ks.length 0 Ks
  .ok (centralityFiles ++ graphs ++ diagrams ++ [labelFile directory labels.graph])

/-- `main`, `sparse_adjacency_matrices.cc:96-421`: the result, and the files in the order in which they are written. -/
noncomputable def main [LinearOrder α] [Field α] (c : Context α) (o : Orders α) (files : List Char → Option (List Char)) (opts : List Opt) (args : List (List Char)) :
    Except Failure (ℤ × List (List Char × List Char)) :=
  match settings c opts with
  | none => .error .exception
  | some s =>
    match args with
    | [] => .ok (-1, [])
    | filename :: _ =>
      match run c o files s filename with
      | .error e => .error e
      | .ok fs => .ok (0, fs)

end Aleph.SparseTool
