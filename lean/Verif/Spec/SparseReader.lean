import Verif.Model.SparseReader
import Verif.Spec.TriangulationReader
import Verif.Spec.Rips

/-!
# Datasets of graphs in the format of sparse adjacency matrices
-/

namespace Aleph.Spec.Sparse

open SparseReader (Options)
open Spec.Triangulation (Content)

variable {α : Type}

/-- The part of a name before its last underscore; everything, if there is none. -/
def Prefix (filename p : List Char) : Prop := (∃ rest, filename = p ++ '_' :: rest ∧ '_' ∉ rest) ∨ ('_' ∉ filename ∧ p = filename)

/-- The fields of a line, between separators; of several fields, the last one is not empty. -/
def Columns (sep : Char) (l : List Char) (ts : List (List Char)) : Prop :=
  l = [sep].intercalate ts ∧ ts ≠ [] ∧ (∀ t ∈ ts, sep ∉ t) ∧ (ts.length = 1 ∨ ts.getLast? ≠ some [])

/-- The part of a line that is used: if requested, whitespace at both ends is removed. -/
def Part (trim : Bool) (l t : List Char) : Prop := (trim = true ∧ Content l t) ∨ (trim = false ∧ t = l)

/-- The lines of a file are related to a list. -/
def FileLines {γ : Type} (files : List Char → Option (List Char)) (name : List Char) (R : List Char → γ → Prop) (xs : List γ) : Prop :=
  ∃ text ls b, files name = some text ∧ Lines text ls b ∧ List.Forall₂ R ls xs

/-- A line of the matrix contains two vertices. -/
def EdgeLine (sep : Char) (convert : List Char → ℕ) (l : List Char) (e : ℕ × ℕ) : Prop := ∃ s t, Columns sep l [s, t] ∧ e = (convert s, convert t)

/-- A line of the graph indicator contains a graph. -/
def GraphLine (convertId : List Char → Option ℕ) (l : List Char) (g : ℕ) : Prop := ∃ t, Content l t ∧ convertId t = some g

/-- A line of attributes contains values. -/
def Row (trim : Bool) (sep : Char) (value : List Char → α) (l : List Char) (r : List α) : Prop := ∃ p ts, Part trim l p ∧ Columns sep p ts ∧ r = ts.map value

/-- A dataset in several files: edges, the graphs of all nodes, the labels of all graphs, and attributes of nodes and edges if requested. -/
structure Dataset (o : Options) (convert : List Char → ℕ) (convertId : List Char → Option ℕ) (value : List Char → α) (files : List Char → Option (List Char))
    (filename : List Char) (edges : List (ℕ × ℕ)) (graphs : List ℕ) (labels : List (List Char)) (nodeRows edgeRows : List (List α)) : Prop where
  matrix : FileLines files filename (EdgeLine o.separator convert) edges
  indicator : ∀ p, Prefix filename p → FileLines files (p ++ "_graph_indicator.txt".toList) (GraphLine convertId) graphs
  labels : ∀ p, Prefix filename p → FileLines files (p ++ "_graph_labels.txt".toList) (Part o.trimLines) labels
  nodeRows : o.readNodeAttributes = true → ∀ p, Prefix filename p → FileLines files (p ++ "_node_attributes.txt".toList) (Row o.trimLines o.separator value) nodeRows
  edgeRows : o.readEdgeAttributes = true → ∀ p, Prefix filename p → FileLines files (p ++ "_edge_attributes.txt".toList) (Row o.trimLines o.separator value) edgeRows

/-- The graph of a node; nodes are numbered from one. -/
def NodeOf (graphs : List ℕ) (v g : ℕ) : Prop := 1 ≤ v ∧ graphs[v - 1]? = some g

/-- A node occurs in an edge. -/
def Incident (edges : List (ℕ × ℕ)) (v : ℕ) : Prop := ∃ e ∈ edges, v = e.1 ∨ v = e.2

/-- The value of an attribute: zero, unless attributes are read and a column has been selected. -/
def Attribute [Zero α] (use : Bool) (column : Option ℕ) (rows : List (List α)) (i : ℕ) (a : α) : Prop :=
  (∃ k r, use = true ∧ column = some k ∧ rows[i]? = some r ∧ r[k]? = some a) ∨ ((use = false ∨ column = none) ∧ a = 0)

/-- Every edge connects nodes of the same graph, and all attributes exist. -/
structure Consistent [Zero α] (o : Options) (edges : List (ℕ × ℕ)) (graphs : List ℕ) (nodeRows edgeRows : List (List α)) : Prop where
  graph : ∀ e ∈ edges, ∃ g, NodeOf graphs e.1 g ∧ NodeOf graphs e.2 g
  node : ∀ v, Incident edges v → ∃ a, Attribute o.readNodeAttributes o.nodeAttributeIndex nodeRows (v - 1) a
  edge : ∀ i < edges.length, ∃ a, Attribute o.readEdgeAttributes o.edgeAttributeIndex edgeRows i a

/-- The simplices of a graph and their data: the nodes that occur in edges, and the edges; the data of an edge that occurs several times is that of the first
occurrence. -/
def GraphData [Zero α] (o : Options) (edges : List (ℕ × ℕ)) (graphs : List ℕ) (nodeRows edgeRows : List (List α)) (g : ℕ) (t : Finset ℕ) (d : α) : Prop :=
  (∃ v, NodeOf graphs v g ∧ Incident edges v ∧ t = {v} ∧ Attribute o.readNodeAttributes o.nodeAttributeIndex nodeRows (v - 1) d) ∨
  (∃ i u v, edges[i]? = some (u, v) ∧ u ≠ v ∧ NodeOf graphs u g ∧ t = {u, v} ∧ (∀ j < i, ∀ u' v', edges[j]? = some (u', v') → ({u', v'} : Finset ℕ) ≠ {u, v}) ∧
    Attribute o.readEdgeAttributes o.edgeAttributeIndex edgeRows i d)

end Aleph.Spec.Sparse
