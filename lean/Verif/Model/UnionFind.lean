import Verif.Model.Complex
import Verif.Model.Reduction

/-!
# Union-Find, connected components and zero-dimensional persistence

Models
* `include/aleph/topology/UnionFind.hh`
* `include/aleph/topology/ConnectedComponents.hh`
* `include/aleph/persistentHomology/ConnectedComponents.hh`

The `std::unordered_map` of parents is an association list; its order (which the
standard leaves open) only influences the order in which `roots` and `get` report vertices.
-/

namespace Aleph

/-- The member `_parent` of `UnionFind`, `UnionFind.hh:111`. -/
abbrev ParentMap := List (Nat × Nat)

namespace ParentMap

/-- `_parent.at(u)`, `UnionFind.hh:55, 60-61`; `none` is the exception. -/
def at? (p : ParentMap) (u : Nat) : Option Nat := (List.find? (fun e => e.1 == u) p).map (·.2)

/-- `_parent[u] = v`, `UnionFind.hh:28, 39, 60`; inserts missing keys. -/
def assign (p : ParentMap) (u v : Nat) : ParentMap :=
  if (p.at? u).isSome then p.map fun e => if e.1 = u then (u, v) else e else p ++ [(u, v)]

/-- The constructor, `UnionFind.hh:24-29`. -/
def ofRange (vs : List Nat) : ParentMap := vs.foldl (fun p v => assign p v v) []

/-- `contains`, `UnionFind.hh:43-46`. -/
def contains (p : ParentMap) (u : Nat) : Bool := (p.at? u).isSome

/-- `find` with path collapse, `UnionFind.hh:53-63`.  The first argument bounds the depth of the
recursion; `none` is the exception for an unknown vertex (or an exhausted bound, which is shown
not to happen). -/
def findAux : Nat → ParentMap → Nat → Option (ParentMap × Nat)
  | 0, _, _ => none
  | f + 1, p, u =>
    match p.at? u with
    | none => none
    | some w =>
      if w = u then some (p, u)
      else
        match findAux f p w with
        | none => none
        | some (p', r) =>
          match (p'.assign u r).at? u with
          | none => none
          | some r' => some (p'.assign u r, r')

/-- `find`, `UnionFind.hh:53-63`. -/
def find (p : ParentMap) (u : Nat) : Option (ParentMap × Nat) := findAux (p.length + 1) p u

/-- `merge(u, v)`, `UnionFind.hh:36-40`.  The order in which the two operands of the assignment are
evaluated is not specified before C++17; `leftFirst` selects it.  The function is `noexcept`, so
`none` means that the program is terminated. -/
def merge (leftFirst : Bool) (p : ParentMap) (u v : Nat) : Option ParentMap :=
  if u = v then some p
  else if leftFirst then
    match p.find u with
    | none => none
    | some (p1, a) =>
      match p1.find v with
      | none => none
      | some (p2, b) => some (p2.assign a b)
  else
    match p.find v with
    | none => none
    | some (p1, b) =>
      match p1.find u with
      | none => none
      | some (p2, a) => some (p2.assign a b)

/-- The loop of `roots`, `UnionFind.hh:75-81`, and of `get`, `UnionFind.hh:99-103`: collects the vertices whose root satisfies
a condition. -/
def collect (cond : Nat → Nat → Bool) (p : ParentMap) : List Nat → Option (ParentMap × List Nat)
  | [] => some (p, [])
  | u :: us =>
    match p.find u with
    | none => none
    | some (p', r) =>
      match collect cond p' us with
      | none => none
      | some (p'', l) => some (p'', if cond u r then u :: l else l)

/-- `roots`, `UnionFind.hh:71-84`. -/
def roots (p : ParentMap) : Option (ParentMap × List Nat) :=
  collect (fun u r => r == u) p (p.map (·.1))

/-- `get(v)`, `UnionFind.hh:94-106`. -/
def get (p : ParentMap) (v : Nat) : Option (ParentMap × List Nat) :=
  match p.find v with
  | none => none
  | some (p', parent) => collect (fun _ r => r == parent) p' (p'.map (·.1))

/-- Calls on a `UnionFind` object, `UnionFind.hh:36-106`. -/
inductive Op
  | merge (leftFirst : Bool) (u v : Nat)
  | find (u : Nat)
  | roots
  | get (v : Nat)
deriving DecidableEq, Repr

/-- State after a call, `UnionFind.hh:36-106`; a call of `find` or `get` with an unknown vertex throws and leaves the
object unchanged, `none` is program termination in `merge`. -/
def exec (p : ParentMap) : Op → Option ParentMap
  | .merge b u v => p.merge b u v
  | .find u => some (((p.find u).map (·.1)).getD p)
  | .roots => some ((p.roots.map (·.1)).getD p)
  | .get v => some (((p.get v).map (·.1)).getD p)

/-- A history of calls, `UnionFind.hh:36-106`. -/
def runOps (p : ParentMap) (ops : List Op) : Option ParentMap := ops.foldlM exec p

end ParentMap

/-- `calculateConnectedComponents`, `topology/ConnectedComponents.hh:26-51`.  `edges` lists the simplices of `K.range(1)`
in the order of the dimension index.  `none` is program termination for an edge without vertices in
`K` (or the exception of `s[1]`). -/
def connectedComponents {α : Type} (leftFirst : Bool) (K edges : Complex α) : Option ParentMap :=
  edges.foldlM (fun p s =>
    match s.vertices[0]?, s.vertices[1]? with
    | some u, some v => if u < v then p.merge leftFirst v u else p.merge leftFirst u v
    | _, _ => none) (ParentMap.ofRange K.vertices)

/-- Loop state of `calculateZeroDimensionalPersistenceDiagram`,
`persistentHomology/ConnectedComponents.hh:121-126`: `uf`, `pd`, `pp`. -/
structure ZeroDimState (α : Type) where
  uf : ParentMap
  points : List (α × α)
  pairing : List (Nat × Nat)

/-- Body of the loop `persistentHomology/ConnectedComponents.hh:131-182`.  `diag` distinguishes the traits `DiagonalElementCalculation` and
`NoDiagonalElementCalculation`; the pairing traits are `PersistencePairingCalculation`, the
functor is the default `EmptyFunctor`.  The position of the simplex (`K.index(simplex)`) is looked up
as in the code.  Simplification: positions are not truncated to the vertex type.  `none` is an
exception. -/
def zeroDimStep {α : Type} [DecidableEq α] (diag leftFirst : Bool) (K : Complex α)
    (st : ZeroDimState α) (s : Simplex α) : Option (ZeroDimState α) :=
  match s.dimension with
  | none => none
  | some d =>
    if d ≠ 1 then some st
    else
      match s.vertices[0]?, s.vertices[1]? with
      | some u, some v =>
        match st.uf.find u with
        | none => none
        | some (p1, a) =>
          match p1.find v with
          | none => none
          | some (p2, b) =>
            if a = b then some { st with uf := p2 }
            else
              match K.index [a], K.index [b] with
              | some ai, some bi =>
                let younger := if ai < bi then b else a
                let older := if ai < bi then a else b
                let uIndex := if ai < bi then bi else ai
                match K.get uIndex, p2.merge leftFirst younger older, K.index s.vertices with
                | some creator, some p3, some sIndex =>
                  if diag || decide (creator.data ≠ s.data) then
                    some ⟨p3, st.points ++ [(creator.data, s.data)], st.pairing ++ [(uIndex, sIndex)]⟩
                  else some { st with uf := p3 }
                | _, _, _ => none
              | _, _ => none
      | _, _ => none

/-- The final loop `persistentHomology/ConnectedComponents.hh:192-201` for one root; `none` if the vertex is missing. -/
def zeroDimRoot {α : Type} (inf : α) (K : Complex α) (st : List (α × α) × List (Nat × Nat))
    (root : Nat) : Option (List (α × α) × List (Nat × Nat)) :=
  match K.find [root], K.index [root] with
  | some s, some i => some (st.1 ++ [(s.data, inf)], st.2 ++ [(i, idxMax)])
  | _, _ => none

/-- `calculateZeroDimensionalPersistenceDiagram`, `persistentHomology/ConnectedComponents.hh:101-204`: points of the diagram and
pairing. -/
def zeroDimensional {α : Type} [DecidableEq α] (diag leftFirst : Bool) (inf : α) (K : Complex α) :
    Option (List (α × α) × List (Nat × Nat)) :=
  match K.foldlM (zeroDimStep diag leftFirst K) ⟨ParentMap.ofRange K.vertices, [], []⟩ with
  | none => none
  | some st =>
    match st.uf.roots with
    | none => none
    | some (_, rs) => rs.foldlM (zeroDimRoot inf K) (st.points, st.pairing)

end Aleph
